import Verif.Lemmas.Template
import Verif.Lemmas.Path
import Verif.Lemmas.Radix
/-! # Helper lemmas: cells, numbers of sub-tasks, loading and the final contraction -/

set_option linter.unusedSectionVars false

namespace Verif

variable {R : Type} [CommSemiring R] {L : Type} [AddCommMonoid L]

/-! ## The fix dictionary -/

theorem assign_of_notMem {E : Type} [DecidableEq E] {ls : List (E × List Nat)} {k : Nat} {a : E → Nat} {e : E}
    (h : e ∉ ls.map Prod.fst) : assign ls k a e = a e := by
  induction ls generalizing k a with
  | nil => rfl
  | cons p ls ih =>
    obtain ⟨e', vals⟩ := p
    rw [List.map_cons, List.mem_cons, not_or] at h
    rw [assign, ih h.2, Function.update_of_ne h.1]

theorem setCells_data (d : Dict (Nm × List Nat) Nat) (k : Nat) (h : Heap L R) : (setCells d k h).data = h.data := by
  induction d generalizing k h with
  | nil => rfl
  | cons p d ih => obtain ⟨⟨e, vals⟩, c⟩ := p; rw [setCells, ih]; rfl

theorem setCells_of_notMem {d : Dict (Nm × List Nat) Nat} {k : Nat} {h : Heap L R} {c : Nat}
    (hc : c ∉ d.map Prod.snd) : (setCells d k h).fix c = h.fix c := by
  induction d generalizing k h with
  | nil => rfl
  | cons p d ih =>
    obtain ⟨⟨e, vals⟩, c'⟩ := p
    rw [List.map_cons, List.mem_cons, not_or] at hc
    rw [setCells, ih hc.2]
    show (if c = c' then _ else _) = _
    rw [if_neg hc.1]

/-- The cells of sub-task `k` hold the values of assignment number `k`. -/
theorem setCells_fix {d : Dict (Nm × List Nat) Nat} (hn : (d.map fun p => p.1.1).Nodup) (hc : (d.map Prod.snd).Nodup)
    {k : Nat} {h : Heap L R} (a : Nm → Nat) {p : (Nm × List Nat) × Nat} (hp : p ∈ d) :
    (setCells d k h).fix p.2 = assign (d.map Prod.fst) k a p.1.1 := by
  induction d generalizing k h a with
  | nil => simp at hp
  | cons q d ih =>
    obtain ⟨⟨e, vals⟩, c⟩ := q
    rw [List.map_cons, List.nodup_cons] at hn hc
    rw [setCells, List.map_cons, assign]
    rcases List.mem_cons.1 hp with rfl | hp
    · rw [setCells_of_notMem hc.1, assign_of_notMem (by rw [List.map_map]; exact hn.1)]
      show (if c = c then _ else _) = _
      rw [if_pos rfl, Function.update_self]
    · exact ih hn.2 hc.2 _ hp

theorem mergeAx_of_notMem {sub : List Nm} {d : Dict (Nm × List Nat) Nat} {k : Nat} {ax : Dict Nm Nat} {e : Nm}
    (h : e ∉ d.map fun p => p.1.1) : (mergeAx sub d k ax).get? e = ax.get? e := by
  induction d generalizing k ax with
  | nil => rfl
  | cons p d ih =>
    obtain ⟨⟨e', vals⟩, c⟩ := p
    rw [List.map_cons, List.mem_cons, not_or] at h
    rw [mergeAx]
    split
    · exact ih h.2
    · rw [ih h.2, Dict.get?_set, if_neg (Ne.symm h.1)]

/-- `_merge` decodes the number of a sub-task the way `__getitem__` does, on edges running over their range. -/
theorem mergeAx_eq {sub : List Nm} {d : Dict (Nm × List Nat) Nat} (hn : (d.map fun p => p.1.1).Nodup)
    (hs : ∀ p ∈ d, p.1.1 ∉ sub) {k : Nat} {ax : Dict Nm Nat} (a : Nm → Nat) {p : (Nm × List Nat) × Nat} (hp : p ∈ d)
    {n : Nat} (hr : p.1.2 = List.range n) (hpos : 0 < n) :
    (mergeAx sub d k ax).get? p.1.1 = some (assign (d.map Prod.fst) k a p.1.1) := by
  induction d generalizing k ax a with
  | nil => simp at hp
  | cons q d ih =>
    obtain ⟨⟨e, vals⟩, c⟩ := q
    rw [List.map_cons, List.nodup_cons] at hn
    rw [mergeAx, if_neg (hs ((e, vals), c) (by simp)), List.map_cons, assign]
    rcases List.mem_cons.1 hp with rfl | hp
    · rw [mergeAx_of_notMem hn.1, assign_of_notMem (by rw [List.map_map]; exact hn.1), Dict.get?_set, if_pos rfl,
        Function.update_self]
      dsimp only at hr
      subst hr
      rw [List.length_range, List.getD_eq_getElem?_getD, List.getElem?_range (Nat.mod_lt _ hpos)]
      rfl
    · exact ih hn.2 (fun p hp => hs p (by simp [hp])) _ hp

/-- Assignments lie in the domains. -/
theorem assign_mem {ls : List (Nm × List Nat)} {k : Nat} {a : Nm → Nat} (hpos : ∀ p ∈ ls, p.2 ≠ [])
    (hn : (ls.map Prod.fst).Nodup) {p : Nm × List Nat} (hp : p ∈ ls) : assign ls k a p.1 ∈ p.2 := by
  induction ls generalizing k a with
  | nil => simp at hp
  | cons q ls ih =>
    obtain ⟨e, vals⟩ := q
    rw [List.map_cons, List.nodup_cons] at hn
    rw [assign]
    rcases List.mem_cons.1 hp with rfl | hp
    · rw [assign_of_notMem hn.1, Function.update_self]
      have h0 : vals ≠ [] := hpos (e, vals) (by simp)
      have hlt : k % vals.length < vals.length := Nat.mod_lt _ (List.length_pos_of_ne_nil h0)
      rw [List.getD_eq_getElem?_getD, List.getElem?_eq_getElem hlt]
      exact List.getElem_mem hlt
    · exact ih (fun p hp => hpos p (by simp [hp])) hn.2 hp

theorem Dict.foldl_set {K V : Type} [DecidableEq K] {d d' : Dict K V} (hn : (Dict.keys (d ++ d')).Nodup) :
    d'.foldl (fun d p => d.set p.1 p.2) d = d ++ d' := by
  induction d' generalizing d with
  | nil => simp
  | cons p d' ih =>
    rw [List.foldl_cons]
    have hp : p.1 ∉ d.keys := by
      intro hc
      rw [Dict.keys_append, List.nodup_append] at hn
      exact hn.2.2 _ hc _ (by simp [Dict.keys]) rfl
    rw [Dict.set_eq_append hp, ih (by simpa using hn)]
    simp

theorem fixEntries_append (l1 l2 : List (Nm × List Nat × Nat)) :
    fixEntries 0 (l1 ++ l2) = fixEntries 0 l1 ++ fixEntries l1.length l2 := by
  unfold fixEntries
  rw [List.zipIdx_append, List.map_append]
  congr 1
  rw [Nat.zero_add, List.zipIdx_eq_map_add, List.map_map]
  refine List.map_congr_left fun p _ => ?_
  simp only [Function.comp, Nat.zero_add]

theorem fixEntries_edges (b : Nat) (l : List (Nm × List Nat × Nat)) :
    (fixEntries b l).map (fun p => p.1.1) = l.map Prod.fst := by
  unfold fixEntries
  rw [List.map_map]
  have : ((fun p : (Nm × List Nat) × Nat => p.1.1) ∘ fun p : (Nm × List Nat × Nat) × Nat => ((p.1.1, p.1.2.1), b + p.2)) =
      Prod.fst ∘ Prod.fst := rfl
  rw [this, ← List.map_map, List.zipIdx_map_fst]

theorem fixEntries_pairs (b : Nat) (l : List (Nm × List Nat × Nat)) :
    (fixEntries b l).map Prod.fst = l.map fun p => (p.1, p.2.1) := by
  unfold fixEntries
  rw [List.map_map]
  have : (Prod.fst ∘ fun p : (Nm × List Nat × Nat) × Nat => (((p.1.1, p.1.2.1), b + p.2) : (Nm × List Nat) × Nat)) =
      (fun p : Nm × List Nat × Nat => (p.1, p.2.1)) ∘ Prod.fst := rfl
  rw [this, ← List.map_map, List.zipIdx_map_fst]

theorem fixEntries_cells (l : List (Nm × List Nat × Nat)) : (fixEntries 0 l).map Prod.snd = List.range l.length := by
  unfold fixEntries
  rw [List.map_map]
  have : (Prod.snd ∘ fun p : (Nm × List Nat × Nat) × Nat => (((p.1.1, p.1.2.1), 0 + p.2) : (Nm × List Nat) × Nat)) =
      Prod.snd := by funext p; simp
  rw [this, List.zipIdx_map_snd, List.range_eq_range']

theorem mem_fixEntries {b : Nat} {l : List (Nm × List Nat × Nat)} {p : (Nm × List Nat) × Nat} :
    p ∈ fixEntries b l ↔ ∃ (i : Nat) (w : Nat), l[i]? = some (p.1.1, p.1.2, w) ∧ p.2 = b + i := by
  unfold fixEntries
  obtain ⟨⟨e, vals⟩, c⟩ := p
  rw [List.mem_map]
  constructor
  · rintro ⟨⟨⟨e', vals', w⟩, i⟩, hm, heq⟩
    simp only [Prod.mk.injEq] at heq
    obtain ⟨⟨rfl, rfl⟩, rfl⟩ := heq
    rw [List.mk_mem_zipIdx_iff_getElem?] at hm
    exact ⟨i, w, hm, rfl⟩
  · rintro ⟨i, w, hm, rfl⟩
    exact ⟨((e, vals, w), i), List.mk_mem_zipIdx_iff_getElem?.2 hm, rfl⟩

theorem cellOf_keys (b : Nat) (l : List (Nm × List Nat × Nat)) :
    Dict.keys (l.zipIdx.map fun p => (p.1.1, b + p.2)) = l.map Prod.fst := by
  unfold Dict.keys
  rw [List.map_map]
  have : (Prod.fst ∘ fun p : (Nm × List Nat × Nat) × Nat => ((p.1.1, b + p.2) : Nm × Nat)) = Prod.fst ∘ Prod.fst := rfl
  rw [this, ← List.map_map, List.zipIdx_map_fst]

theorem cellOf_eq_none {b : Nat} {l : List (Nm × List Nat × Nat)} {e : Nm} :
    cellOf b l e = none ↔ e ∉ l.map Prod.fst := by
  unfold cellOf
  rw [Dict.get?_eq_none, cellOf_keys]

theorem cellOf_some {b : Nat} {l : List (Nm × List Nat × Nat)} {e : Nm} {c : Nat} (h : cellOf b l e = some c) :
    ∃ vals, ((e, vals), c) ∈ fixEntries b l := by
  have hm := Dict.mem_of_get? h
  obtain ⟨⟨⟨e', vals, w⟩, i⟩, hp, heq⟩ := List.mem_map.1 hm
  simp only [Prod.mk.injEq] at heq
  obtain ⟨rfl, rfl⟩ := heq
  exact ⟨vals, List.mem_map.2 ⟨_, hp, rfl⟩⟩

/-- `update_fix` with the network the task was compiled from changes nothing. -/
theorem updateFixGo_same {fixOf : Nm → Option (Option (List Nat))} {d new : Dict (Nm × List Nat) Nat} {h : Heap L R}
    (hd : ∀ p ∈ d, fixOf p.1.1 = some none ∨
      ∃ v vs, fixOf p.1.1 = some (some (v :: vs)) ∧ p.1.2 = v :: vs ∧ h.fix p.2 = v)
    (hn : (Dict.keys (new ++ d)).Nodup) : updateFixGo fixOf d new h = some (new ++ d, h) := by
  induction d generalizing new with
  | nil => rw [updateFixGo, List.append_nil]
  | cons p d ih =>
    obtain ⟨⟨e, vals⟩, c⟩ := p
    have hk : (e, vals) ∉ new.keys := by
      intro hc
      rw [Dict.keys_append, List.nodup_append] at hn
      exact hn.2.2 _ hc _ (by simp [Dict.keys]) rfl
    have ih' := ih (new := new ++ [((e, vals), c)]) (fun p hp => hd p (by simp [hp])) (by simpa using hn)
    rw [List.append_assoc, List.singleton_append] at ih'
    rw [updateFixGo]
    rcases hd ((e, vals), c) (by simp) with h1 | ⟨v, vs, h1, h2, h3⟩
    · dsimp only at h1
      rw [h1]
      dsimp only
      rw [Dict.set_eq_append hk, ih']
    · dsimp only at h1 h2 h3
      rw [h1]
      dsimp only
      have hput : h.putFix c v = h := by
        unfold Heap.putFix
        congr 1
        funext i
        split
        · next hi => rw [hi, h3]
        · rfl
      rw [← h2, Dict.set_eq_append hk, hput, ih']

/-! ## Loading the data -/

theorem inputs_get? {l : List Nm} {n : Nm} {c : Nat} (h : Dict.get? l.zipIdx n = some c) : l[c]? = some n := by
  have := Dict.mem_of_get? h
  exact List.mk_mem_zipIdx_iff_getElem?.1 this

theorem inputs_keys (l : List Nm) : Dict.keys l.zipIdx = l := List.zipIdx_map_fst _ _

theorem loadCells_ok {data : Dict Nm (Arr R)} {inputs : Dict Nm Nat}
    (hinj : ∀ n m c, inputs.get? n = some c → inputs.get? m = some c → n = m) {l : List Nm}
    (hl : ∀ n ∈ l, n ∈ inputs.keys ∧ n ∈ data.keys) (h : Heap L R) :
    ∃ h' : Heap L R, loadCells data inputs (l.zip l) h = some h' ∧ h'.fix = h.fix ∧
      (∀ n ∈ l, ∀ c a, inputs.get? n = some c → data.get? n = some a → h'.data c = some (0, a)) ∧
      ∀ c, h'.data c = h.data c ∨ ∃ n ∈ l, inputs.get? n = some c := by
  induction l generalizing h with
  | nil => exact ⟨h, rfl, rfl, by simp, fun c => Or.inl rfl⟩
  | cons n l ih =>
    obtain ⟨c, hc⟩ := Dict.exists_get? (hl n (by simp)).1
    obtain ⟨a, ha⟩ := Dict.exists_get? (hl n (by simp)).2
    obtain ⟨h', h1, h2, h3, h4⟩ := ih (fun m hm => hl m (by simp [hm])) (h.put c (0, a))
    refine ⟨h', ?_, h2, ?_, ?_⟩
    · rw [List.zip_cons_cons, loadCells, hc, ha]; exact h1
    · intro m hm c' a' hc' ha'
      rcases List.mem_cons.1 hm with rfl | hm
      · rw [hc] at hc'; rw [ha] at ha'; cases hc'; cases ha'
        rcases h4 c with h5 | ⟨m', hm', hcm⟩
        · rw [h5]
          show (if c = c then _ else _) = _
          rw [if_pos rfl]
        · rw [hinj _ _ _ hcm hc] at hm'
          exact h3 m hm' c a hc ha
      · exact h3 m hm c' a' hc' ha'
    · intro c'
      rcases h4 c' with h5 | ⟨m', hm', hcm⟩
      · by_cases hcc : c' = c
        · subst hcc; exact Or.inr ⟨n, by simp, hc⟩
        · left
          rw [h5]
          show (if c' = c then _ else _) = _
          rw [if_neg hcc]
      · exact Or.inr ⟨m', by simp [hm'], hcm⟩

/-! ## The final contraction -/

theorem mapM_some {α β : Type} {f : α → Option β} {g : α → β} {l : List α} (h : ∀ x ∈ l, f x = some (g x)) :
    l.mapM f = some (l.map g) := by
  induction l with
  | nil => rfl
  | cons x xs ih =>
    rw [List.mapM_cons, h x (by simp), ih fun y hy => h y (by simp [hy])]
    rfl

theorem finalCmd_ok {τ : Type} {dims : Nm → Nat} {tnf : TN τ} {order : List OrderStep} {last : Nm} {ref : Dict Nm Nat}
    {nx : Nat} (hc : tnf.Consistent) (hcan : tnf.Canonical) (hu : ∀ e, tnf.isFixed e = false)
    (hord : order = [] ∨ ValidOrder tnf.nodes.keys order last ∧ Pairwise2 order)
    (href : ∀ n ∈ tnf.nodes.keys, n ∈ ref.keys) :
    ∃ cmd, finalCmd tnf order ref nx = some cmd ∧
      ∀ (E : Engine L R) (h : Heap L R) (arr : Nm → Arr R), (∀ l, (E.ord l).Perm l) →
        (∀ p ∈ tnf.nodeLegs, CellHolds dims ref h p.1 p.2 0 (arr p.1)) →
        ∃ r : Arr R, runCmd E h cmd = some (h.put nx (E.finish 0 r)) ∧ r.shape = tnf.openE.map dims ∧
          ∀ idx, r.get idx = einsum (fun e => Finset.range (dims e))
            (tnf.nodeLegs.map fun p => ⟨p.2, (arr p.1).get⟩) tnf.openE idx := by
  have hunf : ∀ e ∈ tnf.edges.keys, (match tnf.edges.get? e with | some r => r.fix.isNone | none => false) = true := by
    intro e he
    obtain ⟨r, hr⟩ := Dict.exists_get? he
    rw [hr]
    have := hu e
    unfold TN.isFixed at this
    rw [hr] at this
    simpa using this
  have hsubs : tnf.subs = tnf.nodeLegs.map Prod.snd := by
    unfold TN.subs TN.nodeLegs
    rw [List.map_map]
    refine List.map_congr_left fun p hp => ?_
    refine List.filter_eq_self.2 fun e he => ?_
    exact hunf e (hc.legs_exist p.1 p.2 (Dict.get?_of_mem hc.nodes_nodup hp) e he)
  have hout : tnf.subsOut = tnf.openE := List.filter_eq_self.2 fun e he => hunf e (hc.open_exist e he)
  have hkeys : tnf.nodes.keys = tnf.nodeLegs.map Prod.fst := by
    unfold TN.nodeLegs Dict.keys; rw [List.map_map]; rfl
  have hlhs : (tnf.nodes.keys).mapM ref.get? = some (tnf.nodes.keys.map fun n => (ref.get? n).getD 0) :=
    mapM_some fun n hn => by
      obtain ⟨c, hcn⟩ := Dict.exists_get? (href n hn)
      rw [hcn]; rfl
  have hsub : ∀ e ∈ tnf.openE, ∃ p ∈ tnf.nodeLegs, e ∈ p.2 := by
    intro e he
    obtain ⟨n, r, hr, hl⟩ := hcan.attached e he
    exact ⟨(n, r.legs), List.mem_map.2 ⟨(n, r), Dict.mem_of_get? hr, rfl⟩, hl⟩
  have hne : tnf.nodeLegs ≠ [] := by
    intro h0
    apply hcan.nonempty
    unfold TN.nodeLegs at h0
    simpa using h0
  have key : ∀ path : Option (List (Nat × Nat)),
      (∀ p, path = some p → PathOK tnf.nodeLegs.length p) →
      ∀ (E : Engine L R) (h : Heap L R) (arr : Nm → Arr R), (∀ l, (E.ord l).Perm l) →
        (∀ p ∈ tnf.nodeLegs, CellHolds dims ref h p.1 p.2 0 (arr p.1)) →
        ∃ r : Arr R, runCmd E h (.c (tnf.nodes.keys.map fun n => (ref.get? n).getD 0) nx tnf.subs tnf.subsOut path) =
            some (h.put nx (E.finish 0 r)) ∧ r.shape = tnf.openE.map dims ∧
          ∀ idx, r.get idx = einsum (fun e => Finset.range (dims e))
            (tnf.nodeLegs.map fun p => ⟨p.2, (arr p.1).get⟩) tnf.openE idx := by
    intro path hpath E h arr hord' hcell
    have hdata : (tnf.nodes.keys.map fun n => (ref.get? n).getD 0).mapM h.data =
        some (tnf.nodeLegs.map fun p => ((0 : L), arr p.1)) := by
      rw [hkeys, List.map_map]
      have : ∀ l : List (Nm × List Nm), (∀ p ∈ l, CellHolds dims ref h p.1 p.2 0 (arr p.1)) →
          (l.map ((fun n => (ref.get? n).getD 0) ∘ Prod.fst)).mapM h.data = some (l.map fun p => ((0 : L), arr p.1)) := by
        intro l hl
        induction l with
        | nil => rfl
        | cons p l ih =>
          obtain ⟨c, h1, h2, _⟩ := hl p (by simp)
          rw [List.map_cons, List.mapM_cons, ih fun q hq => hl q (by simp [hq])]
          simp only [Function.comp, h1, Option.getD_some, h2]
          rfl
      exact this _ hcell
    have hsum : ((tnf.nodeLegs.map fun p => ((0 : L), arr p.1)).map Prod.fst).sum = 0 := by
      rw [List.map_map]
      refine List.sum_eq_zero fun x hx => ?_
      obtain ⟨_, _, rfl⟩ := List.mem_map.1 hx
      rfl
    have hops : tnf.subs.zip ((tnf.nodeLegs.map fun p => ((0 : L), arr p.1)).map Prod.snd) =
        tnf.nodeLegs.map fun p => (p.2, arr p.1) := by
      rw [hsubs, List.map_map, List.zip_map']
      rfl
    have hfits : Fits dims (tnf.nodeLegs.map fun p => (p.2, arr p.1)) := by
      intro o ho
      obtain ⟨p, hp, rfl⟩ := List.mem_map.1 ho
      obtain ⟨_, _, _, h3⟩ := hcell p hp
      exact h3
    have hsub' : ∀ e ∈ tnf.openE, ∃ o ∈ tnf.nodeLegs.map (fun p => (p.2, arr p.1)), e ∈ o.1 := by
      intro e he
      obtain ⟨p, hp, hl⟩ := hsub e he
      exact ⟨_, List.mem_map.2 ⟨p, hp, rfl⟩, hl⟩
    have hfac : einFactors (tnf.nodeLegs.map fun p => (p.2, arr p.1)) =
        tnf.nodeLegs.map fun p => (⟨p.2, (arr p.1).get⟩ : Factor Nm R) := by
      unfold einFactors; rw [List.map_map]; rfl
    have hlen : tnf.subs.length = (tnf.nodes.keys.map fun n => (ref.get? n).getD 0).length := by
      rw [hsubs, hkeys]; simp
    unfold runCmd
    dsimp only
    rw [hdata]
    dsimp only
    rw [hops, hsum, hout]
    cases path with
    | none =>
      rw [npEinsum_eq hfits (by simpa using hne) hcan.nodup hsub']
      dsimp only
      rw [if_pos hlen]
      exact ⟨_, rfl, rfl, fun idx => by dsimp only; rw [hfac]⟩
    | some p =>
      obtain ⟨g, hg1, hg2⟩ := exprEval_eq (ops := tnf.nodeLegs.map fun p => (p.2, arr p.1)) hord' hcan.nodup
        (by rw [List.length_map]; exact hpath p rfl) hfits hsub'
      dsimp only
      rw [hg1]
      dsimp only
      rw [if_pos hlen]
      exact ⟨_, rfl, rfl, fun idx => by dsimp only; rw [hg2, hfac]⟩
  unfold finalCmd
  rw [hlhs]
  cases order with
  | nil => exact ⟨_, rfl, key none (by simp)⟩
  | cons s o =>
    obtain ⟨hv, h2⟩ := hord.resolve_left (by simp)
    obtain ⟨p, hp, hok, _⟩ := pathOf_ok hv h2 hc.nodes_nodup (by simp)
    dsimp only
    rw [hp]
    refine ⟨_, rfl, key (some p) fun q hq => ?_⟩
    cases hq
    rw [hkeys, List.length_map] at hok
    exact hok

end Verif
