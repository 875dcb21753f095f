import Verif.Lemmas.PatchOk
import Verif.Lemmas.Armed
import Verif.Props.Orders
/-! # Helper lemmas: the orders made at compile time -/

set_option linter.unusedSectionVars false

namespace Verif

variable {R : Type} [CommSemiring R] {L : Type} [AddCommMonoid L] {τ : Type}

/-! ## Networks with legs removed -/

theorem all_eq_split {d : Nat} {D : Nm → Nat} {f : Nm → Bool} {es : List Nm} {ex : List Nat}
    (h : ∀ x ∈ (es.map D ++ ex).map some, x = some d) :
    ∃ ex', (es.map D ++ ex) = (es.filter f).map D ++ ex' := by
  have h1 : ∀ x ∈ es.map D ++ ex, x = d := fun x hx => by
    have := h (some x) (List.mem_map_of_mem hx)
    simpa using this
  have h2 : ∀ x ∈ (es.filter f).map D, x = d := fun x hx => by
    obtain ⟨e, he, rfl⟩ := List.mem_map.1 hx
    exact h1 _ (List.mem_append_left _ (List.mem_map_of_mem (List.mem_filter.1 he).1))
  refine ⟨List.replicate ((es.map D ++ ex).length - ((es.filter f).map D).length) d, ?_⟩
  rw [List.eq_replicate_of_mem h1, List.eq_replicate_of_mem h2, ← List.replicate_add]
  congr 1
  simp only [List.length_replicate, List.length_append, List.length_map]
  have := List.length_filter_le f es
  omega

/-- Removing legs keeps a network loose, if all dimensions are equal or no leg goes. -/
theorem TN.LegsFiltered.loose [HasShape τ] {D : Nm → Nat} {tn t : TN τ} {c : Nm → Bool} (h : TN.LegsFiltered tn t c)
    (hc : tn.Consistent) (hl : tn.Loose D)
    (he : (∃ d, tn.Even d) ∨ ∀ n r, tn.nodes.get? n = some r → ∀ e ∈ r.legs, c e = true)
    (hleg : ∀ n r, tn.nodes.get? n = some r → ∀ e ∈ r.legs, c e = true → t.edges.get? e = tn.edges.get? e)
    (hopen : ∀ e ∈ t.openE, ∃ er, t.edges.get? e = some er ∧ er.dim = some (D e)) : t.Loose D := by
  refine ⟨fun n r hr => ?_, fun n r hr e hel => ?_, hopen⟩
  · obtain ⟨r', hr', h1, h2⟩ := h.exists' hc.nodes_nodup hr
    obtain ⟨x, ex, h3, h4⟩ := hl.nodes n r' hr'
    rcases he with ⟨d, hd⟩ | hall
    · obtain ⟨ex', h5⟩ := all_eq_split (f := c) (hd n r' x _ hr' h3 h4)
      exact ⟨x, ex', by rw [h2, h3], by rw [h4, h5, h1]⟩
    · refine ⟨x, ex, by rw [h2, h3], ?_⟩
      rw [h4, h1, List.filter_eq_self.2 (hall n r' hr')]
  · obtain ⟨r', hr', h1, _⟩ := h.exists' hc.nodes_nodup hr
    rw [h1, List.mem_filter] at hel
    rw [hleg n r' hr' e hel.1 hel.2]
    exact hl.legs n r' hr' e hel.1

theorem TN.LegsFiltered.even [HasShape τ] {tn t : TN τ} {c : Nm → Bool} (h : TN.LegsFiltered tn t c)
    (hc : tn.Consistent) {d : Nat} (hd : tn.Even d) : t.Even d := by
  intro n r x sh hr hx
  obtain ⟨r', hr', _, h2⟩ := h.exists' hc.nodes_nodup hr
  exact hd n r' x sh hr' (by rw [← h2]; exact hx)

theorem TN.Ready.loose [HasShape τ] {tn : TN τ} (h : tn.Ready) : tn.Loose tn.dimOf := by
  have hdim : ∀ e er d, tn.edges.get? e = some er → er.dim = some d → d = tn.dimOf e := by
    intro e er d h1 h2
    unfold TN.dimOf
    rw [h1]; simp [h2]
  refine ⟨fun n r hr => ?_, fun n r hr e he => ?_, fun e he => ?_⟩
  · obtain ⟨t, ht, hsh⟩ := (h.nodes n r hr).legs_dims
    exact ⟨t, [], ht, by rw [List.append_nil]; exact hsh⟩
  · obtain ⟨_, sh, _, _, hlen, hall⟩ := h.nodes n r hr
    obtain ⟨i, hi⟩ := List.getElem?_of_mem he
    obtain ⟨er, h1, h2⟩ := hall i e hi
    have hlt : i < sh.length := by rw [hlen]; exact (List.getElem?_eq_some_iff.1 hi).1
    rw [List.getElem?_eq_getElem hlt] at h2
    exact ⟨er, h1, by rw [h2, hdim e er _ h1 h2]⟩
  · obtain ⟨er, d, h1, h2⟩ := h.opens e he
    exact ⟨er, h1, by rw [h2, hdim e er d h1 h2]⟩

theorem pruned_loose [HasShape τ] {tn : TN τ} {split : List Nm} (hc : tn.Consistent) (hcan : tn.Canonical) (hr : tn.Ready)
    (hs : SliceOK tn split) (he : (∃ d, tn.Even d) ∨ NoFix tn) : (tn.pruned split).Loose tn.dimOf := by
  obtain ⟨hp1, hp2, hp3, hp4, hp5⟩ := TN.pruned_spec hc hs hcan.unfixed
  refine hp1.loose hc (hr.loose) (he.imp id fun hx n r hn e hel => ?_) (fun n r hn e hel hce => ?_) fun e heo => ?_
  · rw [Bool.not_eq_true', Bool.eq_false_iff, ne_eq, TN.isFixed_iff]
    rintro ⟨er, l, h1, h2⟩
    rw [hx e er h1] at h2; cases h2
  · obtain ⟨er, h1, h2⟩ := (hr.loose).legs n r hn e hel
    have hf : er.fix = none := by
      cases hfx : er.fix with
      | none => rfl
      | some l => rw [TN.isFixed_iff.2 ⟨er, l, h1, hfx⟩] at hce; cases hce
    rw [h1, hp5 e er h1 hf (Or.inl ⟨n, r, hn, hel⟩)]
  · rw [hp2] at heo
    rcases List.mem_append.1 heo with h | h
    · obtain ⟨er, h1, h2⟩ := (hr.loose).opens e h
      exact ⟨er, hp5 e er h1 (hcan.unfixed e h er h1) (Or.inr (Or.inl h)), h2⟩
    · obtain ⟨d, hd, _⟩ := hs.ok e h
      refine ⟨⟨some d, none⟩, hp5 e _ hd rfl (Or.inr (Or.inr h)), ?_⟩
      unfold TN.dimOf; rw [hd]; rfl

/-! ## Closing slices that were not preset -/

theorem TN.pinAll_plain {split : List Nm} {t : TN τ} (h : ∀ e ∈ split, ∃ d l, t.edges.get? e = some ⟨some d, l⟩ ∧ 0 < d) :
    ∃ t' : TN τ, forLoop (fun t e => TN.fixEdge t e [0]) split t = (t', .ok ()) ∧ t'.nodes = t.nodes ∧ t'.adj = t.adj ∧
      t'.openE = t.openE ∧ t'.edges.keys = t.edges.keys ∧ (∀ e ∉ split, t'.edges.get? e = t.edges.get? e) ∧
      ∀ e ∈ split, t'.isFixed e = true := by
  induction split generalizing t with
  | nil => exact ⟨t, rfl, rfl, rfl, rfl, rfl, fun _ _ => rfl, by simp⟩
  | cons e es ih =>
    obtain ⟨d, l, hd, hpos⟩ := h e (by simp)
    have hstep : ∃ l', TN.fixEdge t e [0] = ({ t with edges := t.edges.set e ⟨some d, some l'⟩ }, .ok ()) := by
      unfold TN.fixEdge
      rw [hd]
      cases l with
      | none => exact ⟨[0], by simp [hpos]⟩
      | some l => exact ⟨l.filter (· ∈ [0]), by simp [hpos]⟩
    obtain ⟨l', hstep⟩ := hstep
    have hk : (t.edges.set e ⟨some d, some l'⟩).keys = t.edges.keys := by
      rw [Dict.keys_set, if_pos (Dict.mem_keys_of_get? hd)]
    obtain ⟨t', h1, h2, h3, h4, h5, h6, h7⟩ := ih (t := { t with edges := t.edges.set e ⟨some d, some l'⟩ })
      fun e' he' => by
        show ∃ d l, Dict.get? (Dict.set _ _ _) e' = _ ∧ _
        rw [Dict.get?_set]
        by_cases hee : e = e'
        · rw [if_pos hee]; exact ⟨d, _, rfl, hpos⟩
        · rw [if_neg hee]; exact h e' (by simp [he'])
    refine ⟨t', ?_, h2, h3, h4, h5.trans hk, fun e' he' => ?_, fun e' he' => ?_⟩
    · rw [forLoop, hstep]; exact h1
    · rw [h6 e' fun hx => he' (by simp [hx])]
      dsimp only
      rw [Dict.get?_set, if_neg fun hx => he' (by simp [hx])]
    · by_cases hx : e' ∈ es
      · exact h7 e' hx
      · rcases List.mem_cons.1 he' with rfl | h'
        · rw [TN.isFixed_iff]
          refine ⟨⟨some d, some l'⟩, l', ?_, rfl⟩
          rw [h6 e' hx]
          dsimp only
          rw [Dict.get?_set, if_pos rfl]
        · exact absurd h' hx

/-- Closing the slices of a network without fixed edges removes exactly the sliced edges. -/
theorem TN.closeSlices_plain [HasShape τ] {D : Nm → Nat} {tn : TN τ} {split : List Nm} (hc : tn.Consistent) (hu : NoFix tn)
    (hl : tn.Loose D) (hev : (∃ d, tn.Even d) ∨ split = [])
    (hs : ∀ e ∈ split, ∃ d, tn.edges.get? e = some ⟨some d, none⟩ ∧ 0 < d) :
    ∃ t : TN τ, closeSlices tn split = (t, .ok ()) ∧ t.nodes.keys = tn.nodes.keys ∧ t.Consistent ∧ t.Loose D ∧ NoFix t := by
  obtain ⟨t', h1, h2, h3, h4, h5, h6, h7⟩ := TN.pinAll_plain (split := split)
    (t := { tn with openE := tn.openE.filter (· ∉ split) }) fun e he => by
      obtain ⟨d, hd, hpos⟩ := hs e he
      exact ⟨d, none, hd, hpos⟩
  have hct : t'.Consistent := by
    refine ⟨by rw [h2]; exact hc.nodes_nodup, by rw [h5]; exact hc.edges_nodup, ?_, ?_, ?_, by rw [h3]; exact hc.adj_nodup⟩
    · rw [h2, h5]; exact hc.legs_exist
    · rw [h4, h5]; exact fun e he => hc.open_exist e (List.mem_filter.1 he).1
    · rw [h3, h2]; exact hc.adj_iff
  have hfx : ∀ e, t'.isFixed e = decide (e ∈ split) := by
    intro e
    by_cases he : e ∈ split
    · rw [h7 e he]; simp [he]
    · rw [decide_eq_false he, Bool.eq_false_iff, ne_eq, isFixed_iff]
      rintro ⟨r, l, hr, hf⟩
      rw [h6 e he] at hr
      rw [hu e r hr] at hf; cases hf
  obtain ⟨k1, k2, k3, k4⟩ := fixAll_spec hct
  have hlf : LegsFiltered tn t'.fixAll (fun e => decide (e ∉ split)) := by
    unfold LegsFiltered
    rw [k1, h2]
    refine List.map_congr_left fun p _ => ?_
    simp only [hfx, Prod.mk.injEq, and_true, true_and]
    exact List.filter_congr fun e _ => by simp
  have hkeep : ∀ e ∉ split, t'.fixAll.edges.get? e = tn.edges.get? e := by
    intro e he
    rw [k2, Dict.get?_filterKeys, if_pos (by rw [hfx]; simp [he]), h6 e he]
  refine ⟨t'.fixAll, ?_, hlf.keys, k4, ?_, ?_⟩
  · unfold closeSlices
    rw [h1]
  · refine hlf.loose hc hl (hev.imp id ?_) (fun n r _ e _ hce => hkeep e (by simpa using hce)) fun e he => ?_
    · rintro rfl n r _ e _; simp
    · rw [k3, h4] at he
      obtain ⟨h8, h9⟩ := List.mem_filter.1 he
      rw [hkeep e (by simpa using h9)]
      exact hl.opens e h8
  · intro e r hr
    by_cases he : e ∈ split
    · rw [k2, Dict.get?_filterKeys, if_neg] at hr
      · cases hr
      · have hno : e ∉ t'.openE := by rw [h4]; simp [he]
        rw [hfx]; simp [he, hno]
    · rw [hkeep e he] at hr; exact hu e r hr

/-! ## The orders -/

theorem Runs.last_name {ns live : List Nm} {o : List OrderStep} (h : Runs ns o live) {s : OrderStep}
    (hs : o.getLast? = some s) : s.2 ∈ live := by
  rcases List.eq_nil_or_concat o with rfl | ⟨p, t, rfl⟩
  · simp at hs
  · rw [List.concat_eq_append] at h hs
    simp at hs
    subst hs
    obtain ⟨_, _, h2⟩ := h.split
    cases h2 with
    | cons _ _ _ h4 =>
      cases h4 with
      | nil hp => exact hp.mem_iff.1 (by simp)

theorem Runs.unique {ns live live' : List Nm} {o : List OrderStep} (h : Runs ns o live) (h' : Runs ns o live') :
    live.Perm live' := (List.perm_append_left_iff _).1 (h.balance.trans h'.balance.symm)

theorem SingleAssignment.after {ns live : List Nm} {init final : List OrderStep} (hs : SingleAssignment ns (init ++ final))
    (h : Runs ns init live) : SingleAssignment live final := by
  unfold SingleAssignment at hs ⊢
  rw [List.map_append, ← List.append_assoc] at hs
  have := (h.balance.append_right (final.map (·.2))).nodup_iff.2 hs
  rw [List.append_assoc] at this
  exact (List.nodup_append.1 this).2.1

/-- Of the orders made at compile time at most the last step is called `'#'`. -/
theorem split_hash {ns : List Nm} {init final : List OrderStep} (hv : ValidOrder ns (init ++ final) (.str "#"))
    (hs : SingleAssignment ns (init ++ final)) :
    (∀ s ∈ init, s.2 ≠ .str "#") ∨
      ∃ init' xs, init = init' ++ [(xs, .str "#")] ∧ final = [] ∧ ∀ s ∈ init', s.2 ≠ .str "#" := by
  rw [validOrder_iff] at hv
  have hnd : ((init ++ final).map (·.2)).Nodup := (List.nodup_append.1 hs).2.1
  rcases List.eq_nil_or_concat (init ++ final) with h | ⟨o, s, h⟩
  · left; rw [(List.append_eq_nil_iff.1 h).1]; simp
  · have hlast : s.2 = .str "#" := by
      have := hv.last_name (s := s) (by rw [h]; simp)
      simpa using this
    have hno : ∀ t ∈ o, t.2 ≠ .str "#" := by
      intro t ht h'
      rw [h] at hnd
      simp only [List.concat_eq_append, List.map_append, List.map_cons, List.map_nil] at hnd
      rw [List.nodup_append] at hnd
      exact hnd.2.2 t.2 (List.mem_map_of_mem ht) s.2 (by simp) (by rw [h', hlast])
    rcases List.eq_nil_or_concat final with hf | ⟨f, s', hf⟩
    · right
      subst hf
      rw [List.append_nil, List.concat_eq_append] at h
      exact ⟨o, s.1, by rw [h, ← hlast], rfl, hno⟩
    · left
      intro t ht
      refine hno t ?_
      rw [hf, List.concat_eq_append, List.concat_eq_append, ← List.append_assoc] at h
      have := (List.append_inj' h rfl).1
      rw [← this]
      exact List.mem_append_left _ ht

/-- A search for better orders of the large steps is sound: it finds valid pairwise orders. -/
def PatchSound (patch : TN τ → List OrderStep → Option (List OrderStep)) : Prop :=
  ∀ g o, ValidOrder g.nodes.keys o (.str "#") → Pairwise2 o → SingleAssignment g.nodes.keys o → o ≠ [] →
    ∃ o' last', patch g o = some o' ∧ ValidOrder g.nodes.keys o' last' ∧ Pairwise2 o'

theorem Pairwise2.of_unordered {o p : List OrderStep} (h : Pairwise2 o) (hp : (p.map unordered).Perm (o.map unordered)) :
    Pairwise2 p := by
  intro s hs
  have : unordered s ∈ o.map unordered := hp.mem_iff.1 (List.mem_map_of_mem hs)
  obtain ⟨t, ht, heq⟩ := List.mem_map.1 this
  have h1 : (s.1 : Multiset Nm) = t.1 := (congrArg Prod.fst heq).symm
  have h2 := (Multiset.coe_eq_coe.1 h1).length_eq
  rw [h2]
  exact h t ht

theorem orderPatch_ok [NetTensor τ] {tn : TN τ} {split : List Nm} {perm : List Nm → List Nm} {thres : Nat}
    {patch : TN τ → List OrderStep → Option (List OrderStep)} {order : List OrderStep} {D : Nm → Nat}
    (hperm : ∀ l, (perm l).Perm l) (hpatch : PatchSound patch) (hc : tn.Consistent) (hx : NoFix tn) (hl : tn.Loose D)
    (hev : (∃ d, tn.Even d) ∨ split = [])
    (hs : ∀ e ∈ split, e ∈ tn.openE ∧ ∃ d, tn.edges.get? e = some ⟨some d, none⟩ ∧ 0 < d)
    (hv : ValidOrder tn.nodes.keys order (.str "#")) (hsa : SingleAssignment tn.nodes.keys order) (h2 : Pairwise2 order) :
    ∃ init0 init final live last, orderPatch perm thres patch tn order split = .ok (init0, final) ∧
      Runs tn.nodes.keys init live ∧ SingleAssignment tn.nodes.keys init ∧ (∀ s ∈ init, s.2 ≠ .str "#") ∧
      (∀ (t : TN τ) ref nx, initCmds perm init0 t ref nx = initCmds perm init t ref nx) ∧
      (final = [] ∨ ValidOrder live final last ∧ Pairwise2 final) := by
  -- the network the order is read against
  have hx1 : NoFix ({ tn with openE := tn.openE ++ split } : TN τ) := hx
  have hc1 : TN.Consistent { tn with openE := tn.openE ++ split } := hc.withOpen fun e he => by
    rcases List.mem_append.1 he with h | h
    · exact hc.open_exist e h
    · exact hc.open_exist e (hs e h).1
  set g := (TN.fixAll { tn with openE := tn.openE ++ split }).dropDangling with hg
  have hg' : g = TN.dropDangling { tn with openE := tn.openE ++ split } := by rw [hg, TN.fixAll_noFix hx1]
  have hgc : g.Consistent := by rw [hg']; exact hc1.dropDangling
  have hgk : g.nodes = tn.nodes := by rw [hg']; rfl
  have hgo : g.openE = tn.openE ++ split := by rw [hg']; rfl
  have hge : ∀ e, e ∈ tn.openE ∨ (∃ n r, tn.nodes.get? n = some r ∧ e ∈ r.legs) → g.edges.get? e = tn.edges.get? e := by
    intro e he
    rw [hg']
    unfold TN.dropDangling
    dsimp only
    rw [Dict.get?_filterKeys, if_pos]
    rw [Bool.or_eq_true, Bool.not_eq_true', TN.adjOfEdge_isEmpty hc1]
    rcases he with h | h
    · right; simp [h]
    · left; exact h
  have hgx : NoFix g := by
    intro e r hr
    rw [hg'] at hr
    unfold TN.dropDangling at hr
    dsimp only at hr
    rw [Dict.get?_filterKeys] at hr
    split at hr
    · exact hx e r hr
    · cases hr
  have hgl : g.Loose D := by
    refine ⟨fun n r hr => hl.nodes n r (by rw [← hgk]; exact hr), fun n r hr e he => ?_, fun e he => ?_⟩
    · rw [hgk] at hr
      rw [hge e (Or.inr ⟨n, r, hr, he⟩)]
      exact hl.legs n r hr e he
    · have heo : e ∈ tn.openE := by
        rw [hgo] at he
        rcases List.mem_append.1 he with h | h
        · exact h
        · exact (hs e h).1
      rw [hge e (Or.inl heo)]
      exact hl.opens e heo
  have hgkeys : g.nodes.keys = tn.nodes.keys := by rw [hgk]
  have hgev : (∃ d, g.Even d) ∨ split = [] := hev.imp (fun ⟨d, hd⟩ => ⟨d, fun n r t sh hr => by
    rw [hgk] at hr; exact hd n r t sh hr⟩) id
  -- reading the order off the tree
  have hb : ∀ s ∈ order, s.1.length ≤ 2 := fun s hm => by rw [h2 s hm]
  obtain ⟨_, d1, e1, _, _⟩ := encAlong_ok hperm ((validOrder_iff).1 hv) (tn := g) (by rw [hgkeys]) hgc hgl hgx g.legLens
  obtain ⟨order', e2, hv', hp'⟩ := treeOrder_spec (lenOf d1) hv hsa hb
  have h2' : Pairwise2 order' := h2.of_unordered hp'
  have hnames : ∀ {a b : List OrderStep}, (a.map unordered).Perm (b.map unordered) → (a.map (·.2)).Perm (b.map (·.2)) := by
    intro a b h
    have := h.map Prod.snd
    simpa [unordered, Function.comp_def] using this
  have hsa' : SingleAssignment tn.nodes.keys order' := hsa.of_perm (List.Perm.refl _) (hnames hp').symm
  -- the small steps
  obtain ⟨_, d2, e3, _, _⟩ := encAlong_ok hperm ((validOrder_iff).1 hv') (tn := g) (by rw [hgkeys]) hgc hgl hgx g.legLens
  obtain ⟨init, final, e4, hv2, hp2, _, live, hrun, _⟩ := c34_reorg_partial thres (lenOf d2) (lenOf d2) hv' hsa'
    (fun s hm => by rw [h2' s hm])
  have hsa2 : SingleAssignment tn.nodes.keys (init ++ final) := hsa'.of_perm (List.Perm.refl _) (hnames hp2).symm
  have h22 : Pairwise2 (init ++ final) := h2'.of_unordered hp2
  obtain ⟨g', d3, e5, hcol, hk5⟩ := encAlong_ok hperm hrun (tn := g) (by rw [hgkeys]) hgc hgl hgx g.legLens
  have e6 : reorgPatch perm thres g order' = .ok (g', init, final) := by
    unfold reorgPatch
    rw [TN.fixAll_noFix hgx, e3]
    dsimp only
    rw [hgkeys, e4]
    dsimp only
    rw [e5]
  -- the slices
  obtain ⟨t, e7, hkt, hct, hlt, hxt⟩ := TN.closeSlices_plain (split := split) hcol.cons hcol.nofix hcol.loose
    (hgev.imp (fun ⟨d, hd⟩ => ⟨d, hcol.even d hd⟩) id) fun e he => by
      obtain ⟨h1, h3⟩ := hs e he
      rw [hcol.edges e (by rw [hgo]; exact List.mem_append_left _ h1), hge e (Or.inl h1)]
      exact h3
  have hfrom : ∀ res, (if final.isEmpty then .ok (init, final) else
        match patchFinal perm patch t final with
        | .error e => .error e
        | .ok final' => .ok (init, final')) = (.ok res : Except Err (List OrderStep × List OrderStep)) →
      orderPatch perm thres patch tn order split = .ok res := by
    intro res h
    unfold orderPatch
    dsimp only
    rw [← hg, e1]
    dsimp only
    rw [hgkeys, e2]
    dsimp only
    rw [e6]
    dsimp only
    rw [e7]
    exact h
  have hsaI : SingleAssignment tn.nodes.keys init := by
    unfold SingleAssignment at hsa2 ⊢
    rw [List.map_append, ← List.append_assoc] at hsa2
    exact (List.nodup_append.1 hsa2).1
  rcases split_hash hv2 hsa2 with hno | ⟨init', xs, rfl, rfl, hno⟩
  · by_cases hf : final = []
    · subst hf
      exact ⟨init, init, [], live, .nil, hfrom _ rfl, hrun, hsaI, hno, fun _ _ _ => rfl, Or.inl rfl⟩
    · have hvf : ValidOrder live final (.str "#") := by
        rw [validOrder_iff] at hv2 ⊢
        obtain ⟨live', k1, k2⟩ := hv2.split
        have := Runs.unique hrun k1
        exact k2.permL this.symm
      have hkl : t.nodes.keys.Perm live := by rw [hkt]; exact hk5
      have hvt : ValidOrder t.nodes.keys final (.str "#") := by
        rw [validOrder_iff] at hvf ⊢
        exact hvf.permL hkl.symm
      have h2f : Pairwise2 final := fun s hm => h22 s (List.mem_append_right _ hm)
      have hsf : SingleAssignment t.nodes.keys final := by
        exact (hsa2.after hrun).of_perm hkl.symm (List.Perm.refl _)
      obtain ⟨o', last', m1, m2, m3⟩ := hpatch t final hvt h2f hsf hf
      obtain ⟨_, d4, m4, _, _⟩ := encAlong_ok hperm ((validOrder_iff).1 hvt) (tn := t) (List.Perm.refl _) hct hlt hxt t.legLens
      refine ⟨init, init, o', live, last', hfrom _ ?_, hrun, hsaI, hno, fun _ _ _ => rfl, Or.inr ⟨?_, m3⟩⟩
      · rw [if_neg (by simpa using hf)]
        unfold patchFinal
        rw [TN.fixAll_noFix hxt, m4]
        dsimp only
        rw [m1]
      · rw [validOrder_iff] at m2 ⊢
        exact m2.permL hkl
  · obtain ⟨live', k1, _⟩ := Runs.split hrun
    refine ⟨init' ++ [(xs, .str "#")], init', [], live', .nil, hfrom _ rfl, k1, ?_, hno,
      fun t ref nx => initCmds_stop init' [] xs hno t ref nx, Or.inl rfl⟩
    unfold SingleAssignment at hsaI ⊢
    rw [List.map_append, ← List.append_assoc] at hsaI
    exact (List.nodup_append.1 hsaI).1

/-! ## Compiling and running -/

/-- Compiling with patching succeeds and yields a task ready to run. -/
theorem compilePatch_armed [NetTensor τ] (L : Type) [AddCommMonoid L] {tn : TN τ} {contract : τ → Option (Arr R)}
    {val : τ → List Nat → R} {perm : List Nm → List Nm} {thres memory : Nat}
    {patch : TN τ → List OrderStep → Option (List OrderStep)} {p : Plan}
    (hperm : ∀ l, (perm l).Perm l) (hpatch : PatchSound patch) (hR : Runnable tn p.slices)
    (hev : (∃ d, tn.Even d) ∨ NoFix tn ∧ p.slices = [])
    (hv : ValidOrder tn.nodes.keys p.order (.str "#")) (hsa : SingleAssignment tn.nodes.keys p.order) (h2 : Pairwise2 p.order)
    (hmem : p.width * 3 * 2 ^ 4 ≤ memory * 2 ^ 30)
    (hcon : ∀ n r t, tn.nodes.get? n = some r → r.ten = some t → Contracts contract val t) :
    ∃ (T : Task R) (h : Heap L R), compilePatch perm thres patch contract memory tn p = .ok (T, h) ∧
      Armed val tn p.slices T h ∧ T.data.keys = tn.nodes.keys ∧ T.pre = some false := by
  obtain ⟨hp1, hp2, hp3, hp4, hp5⟩ := TN.pruned_spec hR.cons hR.slice hR.canon.unfixed
  have hl := pruned_loose hR.cons hR.canon hR.ready hR.slice (hev.imp id And.left)
  obtain ⟨init0, init, final, live, last, e1, e2, e3, e4, e5, e6⟩ := orderPatch_ok (thres := thres) (split := p.slices)
    hperm hpatch hp3 (fun e r hr => (hp4 _ (Dict.mem_of_get? hr)).2) hl
    (hev.imp (fun ⟨d, hd⟩ => ⟨d, hp1.even hR.cons hd⟩) And.right) (fun e he => by
      obtain ⟨d, hd, hpos⟩ := hR.slice.ok e he
      exact ⟨by rw [hp2]; exact List.mem_append_right _ he, d, hp5 e _ hd rfl (Or.inr (Or.inr he)), hpos⟩)
    (by rw [hp1.keys]; exact hv) (by rw [hp1.keys]; exact hsa) h2
  rw [hp1.keys] at e2 e3
  obtain ⟨T, h, arr, k1, k2, k3, k4, k5, k6, k7⟩ := compileGen_ok L (contract := contract) (val := val) (memory := memory)
    (width := p.width) (gen := genTemplatePatch perm thres patch tn p.order p.slices) hR.cons hR.canon hR.ready hR.fix
    hR.slice hcon (by
      obtain ⟨T, m1, m2⟩ := genTemplateWith_ok (R := R) L hperm hR.cons hR.canon hR.fix hR.slice hl e2 e3 e4 e5 e6
      refine ⟨T, ?_, m2⟩
      unfold genTemplatePatch
      rw [show (TN.fixAll { tn with openE := tn.openE ++ p.slices }).dropDangling = tn.pruned p.slices from rfl, e1]
      exact m1) hmem
  exact ⟨T, h, k1, ⟨arr, k2, k3, k4, k7⟩, by rw [k5, nodeLegs_keys], k6⟩

end Verif
