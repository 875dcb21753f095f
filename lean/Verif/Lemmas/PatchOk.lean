import Verif.Lemmas.EncapsAlong
/-! # Helper lemmas: what a task compiled with steps done ahead computes -/

set_option linter.unusedSectionVars false

namespace Verif

variable {R : Type} [CommSemiring R] {L : Type} [AddCommMonoid L] {τ : Type}

theorem sliceEntries_keys {split : List Nm} {es : Dict Nm EdgeRec} (hn : es.keys.Nodup) :
    sliceEntries split es = (es.keys.filter (· ∈ split)).map fun e => (e, List.range (((es.get? e).bind EdgeRec.dim).getD 0), 0) := by
  have key : ∀ l : Dict Nm EdgeRec, (∀ p ∈ l, es.get? p.1 = some p.2) →
      sliceEntries split l = (l.keys.filter (· ∈ split)).map fun e => (e, List.range (((es.get? e).bind EdgeRec.dim).getD 0), 0) := by
    intro l
    induction l with
    | nil => exact fun _ => rfl
    | cons p l ih =>
      intro h
      have h1 := ih fun q hq => h q (by simp [hq])
      have h2 := h p (by simp)
      unfold sliceEntries at h1 ⊢
      rw [List.filterMap_cons, show Dict.keys (p :: l) = p.1 :: Dict.keys l from rfl, List.filter_cons]
      by_cases hp : p.1 ∈ split
      · rw [if_pos hp, if_pos (by simpa using hp), List.map_cons, h1, h2]; rfl
      · rw [if_neg hp, if_neg (by simpa using hp), h1]
  exact key es fun p hp => Dict.get?_of_mem hn hp

theorem Collapsed.slices [HasShape τ] {D : Nm → Nat} {tn tn' : TN τ} (h : Collapsed D tn tn') (hc : tn.Consistent)
    {split : List Nm} (hs : ∀ e ∈ split, e ∈ tn.openE) : sliceEntries split tn'.edges = sliceEntries split tn.edges := by
  obtain ⟨f, hf, hk⟩ := h.edgeKeys
  rw [sliceEntries_keys h.cons.edges_nodup, sliceEntries_keys hc.edges_nodup, hk, List.filter_filter]
  have : (tn.edges.keys.filter fun e => (decide (e ∈ split)) && f e) = tn.edges.keys.filter (· ∈ split) := by
    refine List.filter_congr fun e _ => ?_
    by_cases he : e ∈ split
    · simp [he, hf e (hs e he)]
    · simp [he]
  rw [this]
  refine List.map_congr_left fun e he => ?_
  have he' : e ∈ split := by simpa using (List.mem_filter.1 he).2
  rw [h.edges e (hs e he')]

theorem genTemplateWith_ok (L : Type) [AddCommMonoid L] [NetTensor τ] {tn : TN τ} {split : List Nm}
    {perm : List Nm → List Nm} {init init0 final : List OrderStep} {live : List Nm} {last : Nm} {dims : Nm → Nat}
    (hperm : ∀ l, (perm l).Perm l) (hc : tn.Consistent) (hcan : tn.Canonical) (hf : FixOK tn) (hs : SliceOK tn split)
    (hloose : (tn.pruned split).Loose dims)
    (hrun : Runs tn.nodes.keys init live) (hsa : SingleAssignment tn.nodes.keys init) (hnh : ∀ s ∈ init, s.2 ≠ .str "#")
    (hinit : ∀ (t : TN τ) ref nx, initCmds perm init0 t ref nx = initCmds perm init t ref nx)
    (hord : final = [] ∨ ValidOrder live final last ∧ Pairwise2 final) :
    ∃ (T : Task R), genTemplateWith perm tn init0 final split (tn.openE.map dims) =
        .ok (T, initFix (fixedEntries tn.edges ++ sliceEntries split (tn.pruned split).edges)) ∧
      TaskOK L dims tn.nodeLegs tn.openE ((fixedEntries tn.edges).map Prod.fst)
        ((sliceEntries split (tn.pruned split).edges).map Prod.fst) T ∧
      T.fixDict = fixEntries 0 (fixedEntries tn.edges ++ sliceEntries split (tn.pruned split).edges) ∧
      T.length = fixLength T.fixDict ∧ T.cmds ≠ [] := by
  obtain ⟨hp1, hp2, hp3, hp4, hp5⟩ := TN.pruned_spec hc hs hcan.unfixed
  have hnofix : NoFix (tn.pruned split) := fun e r hr => (hp4 _ (Dict.mem_of_get? hr)).2
  -- the two phases of fix commands, and the steps in between
  set l1 := fixedEntries tn.edges with hl1
  have hinl : ∀ n c, Dict.get? tn.nodes.keys.zipIdx n = some c → c < tn.nodes.length := by
    intro n c h
    have := (List.getElem?_eq_some_iff.1 (inputs_get? h)).1
    simpa [Dict.keys] using this
  obtain ⟨cmds1, ref1, nx1, hg1, hle1, hlt1, _, hk1, hrun1⟩ := genFix_ok (L := L) (R := R) dims (cellOf 0 l1)
    (ns := tn.nodeLegs) (by rw [nodeLegs_fst]; exact hc.nodes_nodup) (ref := tn.nodes.keys.zipIdx)
    (nx := tn.nodes.length) hinl (fun p hp => by
      rw [inputs_keys, ← nodeLegs_fst]; exact List.mem_map_of_mem hp)
  obtain ⟨cmdsI, tnI, refI, nxI, hgI, hcol, hkI, hleI, hltI, hrefI, hrunI⟩ := initCmds_ok L R hperm hrun hsa hnh
    (tn := tn.pruned split) (by rw [hp1.keys]) hp3 hloose hnofix (ref := ref1) (nx := nx1) hlt1 (fun n hn => by
      rw [hk1, inputs_keys, ← hp1.keys]; exact hn)
  have hsplit : ∀ e ∈ split, e ∈ (tn.pruned split).openE := fun e he => by rw [hp2]; exact List.mem_append_right _ he
  have hsl := hcol.slices hp3 hsplit
  set l2 := sliceEntries split (tn.pruned split).edges with hl2
  have hslice0 : ∀ e ∈ split, ∃ d, (tn.pruned split).edges.get? e = some ⟨some d, none⟩ ∧ 0 < d := by
    intro e he
    obtain ⟨d, hd, hpos⟩ := hs.ok e he
    exact ⟨d, hp5 e _ hd rfl (Or.inr (Or.inr he)), hpos⟩
  have hslice : ∀ e ∈ split, ∃ d, tnI.edges.get? e = some ⟨some d, none⟩ ∧ 0 < d := by
    intro e he
    rw [hcol.edges e (hsplit e he)]
    exact hslice0 e he
  have hmemS : ∀ e, e ∈ l2.map Prod.fst ↔ e ∈ split := by
    intro e
    rw [List.mem_map]
    constructor
    · rintro ⟨x, hx, rfl⟩
      exact (mem_sliceEntries.1 hx).choose_spec.2.1
    · intro he
      obtain ⟨d, hd, _⟩ := hslice0 e he
      exact ⟨(e, List.range d, 0), mem_sliceEntries.2 ⟨_, Dict.mem_of_get? hd, he, rfl⟩, rfl⟩
  have hFS : ∀ e ∈ l2.map Prod.fst, e ∉ l1.map Prod.fst := by
    intro e he hF
    obtain ⟨r, l, hr, hl⟩ := TN.isFixed_iff.1 ((isFixed_iff_mem hc hf).2 hF)
    obtain ⟨d, hd, _⟩ := hs.ok e ((hmemS e).1 he)
    rw [hd] at hr; cases hr; simp at hl
  have hunfI : ∀ p ∈ tnI.edges, p.2.fix = none := fun p hp =>
    hcol.nofix p.1 p.2 (Dict.get?_of_mem hcol.cons.edges_nodup hp)
  obtain ⟨tnf, hcl, hlf, hof, hcf, huf⟩ := TN.closeSlices_spec hcol.cons hunfI hslice
  have hopen : tnf.openE = tn.openE.filter (· ∉ l1.map Prod.fst ++ l2.map Prod.fst) := by
    rw [hof, hcol.openE, hp2, List.filter_append]
    have : split.filter (· ∉ split) = [] := List.filter_eq_nil_iff.2 fun e he => by simpa using he
    rw [this, List.append_nil]
    refine List.filter_congr fun e he => ?_
    have hnf : e ∉ l1.map Prod.fst := by
      intro hF
      obtain ⟨r, l, hr, hl⟩ := TN.isFixed_iff.1 ((isFixed_iff_mem hc hf).2 hF)
      rw [hcan.unfixed e he r hr] at hl; simp at hl
    simp only [List.mem_append, hnf, hmemS, false_or]
  have hcanf : tnf.Canonical := by
    refine ⟨?_, ?_, ?_, ?_⟩
    · rw [hopen]; exact hcan.nodup.filter _
    · intro e he
      rw [hopen, List.mem_filter] at he
      obtain ⟨n, r, hr, hl⟩ := hcan.attached e he.1
      obtain ⟨r', hr', hl', _⟩ := hp1.exists hc.nodes_nodup hr
      have h2 := he.2
      simp only [List.mem_append, decide_eq_true_eq, not_or] at h2
      have hnf : tn.isFixed e = false := by
        rw [Bool.eq_false_iff, ne_eq, isFixed_iff_mem hc hf]; exact h2.1
      obtain ⟨p, hp, hpe⟩ := hcol.att e (by rw [hp2]; exact List.mem_append_left _ he.1)
        ⟨(n, r'.legs), (mem_nodeLegs hp3).2 ⟨r', hr', rfl⟩, by
          show e ∈ r'.legs
          rw [hl', List.mem_filter]; exact ⟨hl, by rw [hnf]; rfl⟩⟩
      obtain ⟨q, hq, hql⟩ := (mem_nodeLegs hcol.cons).1 hp
      obtain ⟨q', hq', hql', _⟩ := hlf.exists hcol.cons.nodes_nodup hq
      refine ⟨p.1, q', hq', ?_⟩
      rw [hql', List.mem_filter, hql]
      refine ⟨hpe, ?_⟩
      rw [decide_eq_true_eq, ← hmemS]
      exact h2.2
    · intro e _ r hr
      have := huf e
      unfold TN.isFixed at this
      rw [hr] at this
      simpa using this
    · intro h0
      have hk0 := hlf.keys
      rw [h0] at hk0
      have hl0 : live = [] := by
        have : tnI.nodes.keys = [] := hk0.symm
        rw [this] at hkI
        exact List.nil_perm.1 hkI
      have key : ∀ {a c : List Nm} {o : List OrderStep}, Runs a o c → c = [] → a = [] := by
        intro a c o h
        induction h with
        | nil h => rintro rfl; exact List.perm_nil.1 h
        | cons _ _ _ _ ih => intro h; exact absurd (ih h) (by simp)
      exact hcan.nonempty (List.map_eq_nil_iff.1 (key hrun hl0))
  have hcanB : tnf.canonicalB = true := by
    unfold TN.canonicalB
    rw [Bool.and_eq_true, Bool.and_eq_true, decide_eq_true_eq, List.all_eq_true]
    refine ⟨⟨hcanf.nodup, ?_⟩, fun e he => ?_⟩
    · have := hcanf.nonempty
      cases hn : tnf.nodes with
      | nil => exact absurd hn this
      | cons _ _ => rfl
    · rw [Bool.and_eq_true, Bool.not_eq_true', TN.adjOfEdge_isEmpty hcf]
      refine ⟨hcanf.attached e he, ?_⟩
      obtain ⟨r, hr⟩ := Dict.exists_get? (hcf.open_exist e he)
      rw [hr]
      simp [hcanf.unfixed e he r hr]
  have hnl2 : (tn.pruned split).nodeLegs = tn.nodeLegs.map fun p => (p.1, p.2.filter fun e => (cellOf 0 l1 e).isNone) := by
    rw [hp1.nodeLegs]
    unfold TN.nodeLegs
    rw [List.map_map]
    refine List.map_congr_left fun p _ => ?_
    simp only [Function.comp, Prod.mk.injEq, true_and]
    refine List.filter_congr fun e _ => ?_
    rw [cellOf_eq]
    by_cases hF : e ∈ l1.map Prod.fst
    · rw [if_pos hF, (isFixed_iff_mem hc hf).2 hF]; rfl
    · rw [if_neg hF]
      have hnf : tn.isFixed e = false := by
        rw [Bool.eq_false_iff, ne_eq, isFixed_iff_mem hc hf]; exact hF
      rw [hnf]; rfl
  obtain ⟨cmds2, ref2, nx2, hg2, hle2, hlt2, _, hk2, hrun2⟩ := genFix_ok (L := L) (R := R) dims
    (cellOf l1.length l2) (ns := tnI.nodeLegs) (by
      rw [nodeLegs_fst]; exact hcol.cons.nodes_nodup) (ref := refI)
    (nx := nxI) hltI (fun p hp => by
      refine hrefI p.1 ?_
      rw [← nodeLegs_fst]; exact List.mem_map_of_mem hp)
  have hnl3 : tnf.nodeLegs = tnI.nodeLegs.map fun p =>
      (p.1, p.2.filter fun e => (cellOf l1.length l2 e).isNone) := by
    rw [hlf.nodeLegs]
    unfold TN.nodeLegs
    rw [List.map_map]
    refine List.map_congr_left fun p _ => ?_
    simp only [Function.comp, Prod.mk.injEq, true_and]
    refine List.filter_congr fun e _ => ?_
    rw [cellOf_eq]
    by_cases hS : e ∈ split
    · rw [if_pos ((hmemS e).2 hS)]; simp [hS]
    · rw [if_neg fun h => hS ((hmemS e).1 h)]; simp [hS]
  obtain ⟨cmd, hcmd, hcrun⟩ := finalCmd_ok (L := L) (R := R) (dims := dims) (nx := nx2) hcf hcanf huf
    (hord.imp id fun h => ⟨by
      rw [hlf.keys]
      rw [validOrder_iff] at h ⊢
      exact h.1.permL hkI.symm, h.2⟩) (ref := ref2) (fun n hn => by
      rw [hk2]; refine hrefI n ?_; rw [← hlf.keys]; exact hn)
  have hnd : (Dict.keys (fixEntries 0 l1 ++ fixEntries l1.length l2)).Nodup := by
    rw [← fixEntries_append]
    have : ((fixEntries 0 (l1 ++ l2)).map fun p => p.1.1).Nodup := by
      rw [fixEntries_edges, List.map_append]
      exact List.Nodup.append (fixedEntries_nodup hc.edges_nodup) (sliceEntries_nodup hp3.edges_nodup)
        fun e h1 h2 => hFS e h2 h1
    rw [show (fun p : (Nm × List Nat) × Nat => p.1.1) = Prod.fst ∘ Prod.fst from rfl, ← List.map_map] at this
    exact this.of_map
  have hfd : (fixEntries l1.length l2).foldl (fun d p => d.set p.1 p.2) (fixEntries 0 l1) = fixEntries 0 (l1 ++ l2) := by
    rw [Dict.foldl_set hnd, fixEntries_append]
  refine ⟨{ cmds := (cmds1 ++ cmdsI) ++ cmds2 ++ [cmd], fixDict := fixEntries 0 (l1 ++ l2), inputs := tn.nodes.keys.zipIdx,
            output := nx2, shape := tn.openE.map dims, openE := some tn.openE, subOut := tnf.openE,
            cnt := (cmds1 ++ cmdsI).length, length := fixLength (fixEntries 0 (l1 ++ l2)),
            pre := if (cmds1 ++ cmdsI).length > 0 then some false else none }, ?_, ?_, rfl, rfl, by simp⟩
  · unfold genTemplateWith
    dsimp only
    rw [edgeFix_fixed (fun p hp l hl => by
      obtain ⟨v, _, rfl, _⟩ := hf p.1 p.2 l (Dict.get?_of_mem hc.edges_nodup hp) hl; exact ⟨v, rfl⟩)]
    dsimp only
    rw [← hl1, hg1]
    dsimp only
    rw [show (TN.fixAll { tn with openE := tn.openE ++ split }).dropDangling = tn.pruned split from rfl, hinit, hgI]
    dsimp only
    rw [edgeFix_slices hunfI (fun p hp hsp => by
        obtain ⟨d, hd, _⟩ := hslice p.1 hsp
        rw [Dict.get?_of_mem hcol.cons.edges_nodup hp] at hd
        rw [Option.some.injEq] at hd
        rw [hd]; simp)]
    dsimp only
    rw [hsl, hg2]
    dsimp only
    rw [hcl]
    dsimp only
    rw [if_pos hcanB, hcmd]
    dsimp only
    rw [hfd]
  · refine ⟨by rw [nodeLegs_fst], rfl, rfl, hopen, nxI, ?_⟩
    intro E E' h arr hnrm hordE0 hordE hcell hfixr
    have hcell1 : ∀ e, cellOf 0 l1 e = if e ∈ l1.map Prod.fst then some ((l1.map Prod.fst).idxOf e) else none := by
      intro e; rw [cellOf_eq, Nat.zero_add]
    have hcell2 : ∀ e, cellOf l1.length l2 e =
        if e ∈ l2.map Prod.fst then some ((l1.map Prod.fst).length + (l2.map Prod.fst).idxOf e) else none := by
      intro e; rw [cellOf_eq, List.length_map]
    obtain ⟨h1, hr1, hf1, _, hnew1⟩ := hrun1 E h (fun n => (0, arr n)) hcell (fun p _ e _ c hce => by
      rw [hcell1] at hce
      split at hce
      · next hF => cases hce; exact hfixr e hF
      · simp at hce)
    have : Inhabited (Arr R) := ⟨zeroArr []⟩
    obtain ⟨arr1, harr1⟩ := choose_fun hnew1
    have hget1 : ∀ q ∈ tn.nodes, (tn.nodes.get? q.1).map NodeRec.legs = some q.2.legs := fun q hq => by
      rw [Dict.get?_of_mem hc.nodes_nodup hq]; rfl
    let A1 : Nm → Arr R := fun n => arr1 (n, ((tn.nodes.get? n).map NodeRec.legs).getD [])
    have hA1 : ∀ p ∈ tn.nodeLegs, A1 p.1 = arr1 p := by
      intro p hp
      obtain ⟨q, hq, rfl⟩ := List.mem_map.1 hp
      show arr1 (q.1, _) = _
      rw [hget1 q hq]; rfl
    obtain ⟨hI, AI, hrI, hfI, _, hcellI, hvalI⟩ := hrunI E h1 A1 hnrm hordE0 (fun p hp => by
        rw [hnl2] at hp
        obtain ⟨q, hq, rfl⟩ := List.mem_map.1 hp
        obtain ⟨c, k1, k2, k3⟩ := (harr1 q hq).1
        refine ⟨c, k1, ?_, ?_⟩
        · rw [k2, hA1 q hq]
        · dsimp only; rw [hA1 q hq]; exact k3)
    refine ⟨hI, by
      show runCmds E (((cmds1 ++ cmdsI) ++ cmds2 ++ [cmd]).take (cmds1 ++ cmdsI).length) h = _
      rw [List.append_assoc, List.take_left' rfl, runCmds_append hr1]
      exact hrI, hfI.trans hf1, ?_⟩
    intro h2 hd2 hfix2
    obtain ⟨h2', hr2, hf2, hold2, hnew2⟩ := hrun2 E' h2 (fun n => (0, AI n)) (fun p hp => by
        obtain ⟨c, k1, k2, k3⟩ := hcellI p hp
        exact ⟨c, k1, by rw [hd2 c (hltI _ _ k1), k2], k3⟩) (fun p _ e _ c hce => by
      rw [hcell2] at hce
      split at hce
      · next hS => cases hce; exact hfix2 e hS
      · simp at hce)
    obtain ⟨arr2, harr2⟩ := choose_fun hnew2
    let A2 : Nm → Arr R := fun n => arr2 (n, ((tnI.nodes.get? n).map NodeRec.legs).getD [])
    have hA2 : ∀ p ∈ tnI.nodeLegs, A2 p.1 = arr2 p := by
      intro p hp
      obtain ⟨q, hq, rfl⟩ := List.mem_map.1 hp
      show arr2 (q.1, _) = _
      rw [Dict.get?_of_mem hcol.cons.nodes_nodup hq]; rfl
    obtain ⟨r, hrc, hrs, hrg⟩ := hcrun E' h2' A2 hordE (fun p hp => by
      rw [hnl3] at hp
      obtain ⟨q, hq, rfl⟩ := List.mem_map.1 hp
      obtain ⟨c, k1, k2, k3⟩ := (harr2 q hq).1
      exact ⟨c, k1, by dsimp only; rw [hA2 q hq]; exact k2, by dsimp only; rw [hA2 q hq]; exact k3⟩)
    refine ⟨h2'.put nx2 (E'.finish 0 r), r, ?_, hf2, ?_, ?_, hrs, ?_⟩
    · show runCmds E' (((cmds1 ++ cmdsI) ++ cmds2 ++ [cmd]).drop (cmds1 ++ cmdsI).length) h2 = _
      rw [List.append_assoc, List.drop_left' rfl, runCmds_append hr2, runCmds, hrc]
      rfl
    · intro c hcn
      show (if c = nx2 then _ else _) = _
      rw [if_neg (by omega)]
      exact hold2 c hcn
    · show (if nx2 = nx2 then _ else _) = _
      rw [if_pos rfl]
    · intro idx
      set S := l2.map Prod.fst with hSdef
      set F := l1.map Prod.fst with hFdef
      let σ : Nm → Nat := fun e => h2.fix (F.length + S.idxOf e)
      rw [hrg]
      dsimp only
      -- pinning the slices
      have s1 : einsum (fun e => Finset.range (dims e)) (tnf.nodeLegs.map fun p => ⟨p.2, (A2 p.1).get⟩) tnf.openE idx =
          einsum (fun e => Finset.range (dims e)) (pinned S σ AI tnI.nodeLegs) tnf.openE idx := by
        refine einsum_factors_congr ?_
        rw [hnl3, List.map_map]
        unfold pinned
        rw [List.forall₂_map_left_iff, List.forall₂_map_right_iff, List.forall₂_same]
        intro p hp
        simp only [Function.comp]
        have h3 := (harr2 p hp).2
        have hleg : (p.2.filter fun e => (cellOf l1.length l2 e).isNone) = p.2.filter (· ∉ S) := by
          refine List.filter_congr fun e _ => ?_
          rw [hcell2]
          by_cases h3 : e ∈ S <;> simp [h3]
        refine ⟨hleg, fun a _ => ?_⟩
        show (A2 p.1).get _ = (AI p.1).get (weave S σ p.2 _)
        rw [hleg, weave_map, ← hleg, hA2 p hp, h3]
        dsimp only
        refine congrArg _ (List.map_congr_left fun e _ => ?_)
        rw [hcell2]
        by_cases h3 : e ∈ S <;> simp [h3, σ]
      -- the steps done ahead
      have s2 : einsum (fun e => Finset.range (dims e)) (pinned S σ AI tnI.nodeLegs) tnf.openE idx =
          einsum (fun e => Finset.range (dims e)) (pinned S σ A1 (tn.pruned split).nodeLegs) tnf.openE idx :=
        hvalI S tnf.openE σ (fun e he => hsplit e ((hmemS e).1 he)) (fun e he => by
          rw [hof, hcol.openE] at he; exact (List.mem_filter.1 he).1) (fun e he => hfix2 e he) idx
      rw [s1, s2]
      -- pinning the fixed edges
      refine einsum_factors_congr ?_
      unfold pinned
      rw [hnl2, List.map_map, List.forall₂_map_left_iff, List.forall₂_map_right_iff, List.forall₂_same]
      intro p hp
      simp only [Function.comp]
      have h3 := (harr1 p hp).2
      have hS2 : ∀ l : List Nm, (l.filter fun e => (cellOf l1.length l2 e).isNone) = l.filter (· ∉ S) := by
        intro l
        refine List.filter_congr fun e _ => ?_
        rw [hcell2]
        by_cases h3 : e ∈ S <;> simp [h3]
      obtain ⟨k1, k2⟩ := pin_two (legs := p.2) (legs2 := (p.2.filter fun e => (cellOf 0 l1 e).isNone).filter (· ∉ S))
        hcell1 hcell2 rfl (hS2 _).symm
        (a := (arr p.1).get) (a1 := (arr1 p).get)
        (a2 := (Factor.pin S σ ⟨p.2.filter fun e => (cellOf 0 l1 e).isNone, (arr1 p).get⟩).ten)
        (f1 := h.fix) (f2 := h2.fix) h3 (fun b => by
          show (arr1 p).get (weave S σ _ _) = _
          rw [weave_map]
          refine congrArg _ (List.map_congr_left fun e _ => ?_)
          rw [hcell2]
          by_cases h3 : e ∈ S <;> simp [h3, σ])
      refine ⟨k1, fun a _ => ?_⟩
      rw [show A1 p.1 = arr1 p from hA1 p hp]
      exact k2 a

end Verif
