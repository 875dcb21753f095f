import Verif.Lemmas.Compiled
import Verif.Spec.Engine
/-! # Helper lemmas: executing a compiled task -/

set_option linter.unusedSectionVars false

namespace Verif

variable {R : Type} [CommSemiring R] {L : Type} [AddCommMonoid L] {τ : Type}

theorem weave_congr {E : Type} [DecidableEq E] {P : List E} {σ σ' : E → Nat} (h : ∀ e ∈ P, σ e = σ' e) (legs : List E)
    (js : List Nat) : weave P σ legs js = weave P σ' legs js := by
  induction legs generalizing js with
  | nil => rfl
  | cons e es ih =>
    rw [weave, weave]
    by_cases he : e ∈ P
    · rw [if_pos he, if_pos he, h e he, ih]
    · rw [if_neg he, if_neg he, ih]

theorem Factor.pin_congr {E : Type} [DecidableEq E] {P : List E} {σ σ' : E → Nat} (h : ∀ e ∈ P, σ e = σ' e)
    (f : Factor E R) : f.pin P σ = f.pin P σ' := by
  unfold Factor.pin
  congr 1
  funext js
  rw [weave_congr h]

theorem coord_map {opn : List Nm} {b : Nm → Nat} {e : Nm} (he : e ∈ opn) : coord opn (opn.map b) e = b e := by
  unfold coord
  have hi : opn.idxOf e < opn.length := List.idxOf_lt_length_iff.2 he
  rw [List.getD_eq_getElem?_getD, List.getElem?_map, List.getElem?_eq_getElem hi, List.getElem_idxOf]
  rfl

theorem inRange_map {l : List Nm} {b dims : Nm → Nat} : InRange (l.map dims) (l.map b) ↔ ∀ e ∈ l, b e < dims e := by
  unfold InRange
  rw [List.forall₂_map_left_iff, List.forall₂_map_right_iff, List.forall₂_same]

theorem mergeAxes_ok {opn sub : List Nm} (ho : opn.Nodup) (hs : sub.Nodup) (hsub : ∀ e ∈ sub, e ∈ opn) :
    (mergeAxes opn sub).Nodup ∧ (mergeAxes opn sub).length = opn.length := by
  have hget : ∀ e ∈ opn, opn.getD (opn.idxOf e) .nil = e := by
    intro e he
    have hi : opn.idxOf e < opn.length := List.idxOf_lt_length_iff.2 he
    rw [List.getD_eq_getElem?_getD, List.getElem?_eq_getElem hi, List.getElem_idxOf]
    rfl
  have hn : (mergeAxes opn sub).Nodup := by
    unfold mergeAxes
    refine List.Nodup.append (List.nodup_range.filter _) ?_ ?_
    · exact List.Nodup.map_on (fun x hx y _ h => (List.idxOf_inj (hsub x hx)).1 h) hs
    · intro i h1 h2
      obtain ⟨e, he, rfl⟩ := List.mem_map.1 h2
      rw [List.mem_filter, decide_eq_true_eq, hget e (hsub e he)] at h1
      exact h1.2 he
  refine ⟨hn, ?_⟩
  have hp : (mergeAxes opn sub).Perm (List.range opn.length) := by
    refine (List.perm_ext_iff_of_nodup hn List.nodup_range).2 fun i => ?_
    unfold mergeAxes
    rw [List.mem_append, List.mem_filter, List.mem_range, List.mem_map, decide_eq_true_eq]
    constructor
    · rintro (h | ⟨e, he, rfl⟩)
      · exact h.1
      · exact List.idxOf_lt_length_iff.2 (hsub e he)
    · intro hi
      by_cases hm : opn.getD i .nil ∈ sub
      · right
        refine ⟨_, hm, ?_⟩
        rw [List.getD_eq_getElem?_getD, List.getElem?_eq_getElem hi]
        exact List.Nodup.idxOf_getElem ho i hi
      · exact Or.inl ⟨hi, hm⟩
  rw [hp.length_eq, List.length_range]

/-- The contribution of the assignment `σ` of the pinned edges to the entry at `b` of the open indices. -/
def sliceTerm (dims : Nm → Nat) (fs : List (Factor Nm R)) (opn P : List Nm) (σ b : Nm → Nat) : R :=
  if ∀ e ∈ opn, e ∈ P → σ e = b e then
    einsum (fun e => Finset.range (dims e)) (fs.map (Factor.pin P σ)) (opn.filter (· ∉ P)) ((opn.filter (· ∉ P)).map b)
  else 0

/-- The factors of the nodes. -/
def armFactors (nl : List (Nm × List Nm)) (arr : Nm → Arr R) : List (Factor Nm R) :=
  nl.map fun p => ⟨p.2, (arr p.1).get⟩

/-- A task ready to run: compiled commands, fix dictionary `l`, data `arr`, and a heap whose cells of `F` hold the
values of the dictionary. -/
structure RunOK (L : Type) [AddCommMonoid L] (dims : Nm → Nat) (nl : List (Nm × List Nm)) (opn F S : List Nm)
    (l : List (Nm × List Nat × Nat)) (arr : Nm → Arr R) (T : Task R) : Prop where
  task : TaskOK L dims nl opn F S T
  names : (nl.map Prod.fst).Nodup
  opn_nodup : opn.Nodup
  opn_F : ∀ e ∈ opn, e ∉ F
  edges : l.map Prod.fst = F ++ S
  nodup : (F ++ S).Nodup
  dict : T.fixDict = fixEntries 0 l
  valF : ∀ x ∈ l, x.1 ∈ F → ∃ v, x.2.1 = [v] ∧ v < dims x.1
  valS : ∀ x ∈ l, x.1 ∈ S → x.2.1 = List.range (dims x.1) ∧ 0 < dims x.1
  data : T.data.keys.Perm (nl.map Prod.fst)
  arrs : ∀ p ∈ nl, T.data.get? p.1 = some (arr p.1) ∧ (arr p.1).shape = p.2.map dims
  proper : T.length = 1 → ∀ e ∈ opn, e ∉ S

/-- The cells of the fixed edges hold their values. -/
def CellsSet (F : List Nm) (l : List (Nm × List Nat × Nat)) (h : Heap L R) : Prop :=
  ∀ x ∈ l, x.1 ∈ F → ∀ v, x.2.1 = [v] → h.fix (F.idxOf x.1) = v

/-- The pairs (edge, values) of a fix dictionary. -/
def digits (l : List (Nm × List Nat × Nat)) : List (Nm × List Nat) := l.map fun p => (p.1, p.2.1)

section
variable {dims : Nm → Nat} {nl : List (Nm × List Nm)} {opn F S : List Nm} {l : List (Nm × List Nat × Nat)}
  {arr : Nm → Arr R} {T : Task R}

theorem RunOK.entry (hR : RunOK L dims nl opn F S l arr T) {x : Nm × List Nat × Nat} (hx : x ∈ l) :
    ((x.1, x.2.1), (F ++ S).idxOf x.1) ∈ fixEntries 0 l := by
  have hn : (l.map Prod.fst).Nodup := by rw [hR.edges]; exact hR.nodup
  obtain ⟨i, hi, rfl⟩ := List.mem_iff_getElem.1 hx
  refine mem_fixEntries.2 ⟨i, l[i].2.2, List.getElem?_eq_getElem hi, ?_⟩
  dsimp only
  rw [Nat.zero_add, ← hR.edges]
  have : l[i].1 = (l.map Prod.fst)[i]'(by simpa using hi) := by simp
  rw [this]
  exact List.Nodup.idxOf_getElem hn i _

theorem RunOK.mem_of (hR : RunOK L dims nl opn F S l arr T) {e : Nm} (he : e ∈ F ++ S) : ∃ x ∈ l, x.1 = e := by
  rw [← hR.edges] at he
  obtain ⟨x, hx, h⟩ := List.mem_map.1 he
  exact ⟨x, hx, h⟩

theorem RunOK.cells (hR : RunOK L dims nl opn F S l arr T) (k : Nat) (h : Heap L R) {x : Nm × List Nat × Nat}
    (hx : x ∈ l) : (setCells T.fixDict k h).fix ((F ++ S).idxOf x.1) = assign (digits l) k (fun _ => 0) x.1 := by
  have := setCells_fix (d := fixEntries 0 l) (by rw [fixEntries_edges, hR.edges]; exact hR.nodup)
    (by rw [fixEntries_cells]; exact List.nodup_range) (k := k) (h := h) (fun _ => 0) (hR.entry hx)
  rw [fixEntries_pairs] at this
  rw [hR.dict]
  exact this

theorem RunOK.assign_mem (hR : RunOK L dims nl opn F S l arr T) (k : Nat) {x : Nm × List Nat × Nat} (hx : x ∈ l) :
    assign (digits l) k (fun _ => 0) x.1 ∈ x.2.1 := by
  have hd : (digits l).map Prod.fst = F ++ S := by rw [← hR.edges]; unfold digits; rw [List.map_map]; rfl
  refine Verif.assign_mem (ls := digits l) (p := (x.1, x.2.1)) (fun p hp => ?_) (by rw [hd]; exact hR.nodup)
    (List.mem_map.2 ⟨x, hx, rfl⟩)
  obtain ⟨y, hy, rfl⟩ := List.mem_map.1 hp
  dsimp only
  have : y.1 ∈ F ++ S := by rw [← hR.edges]; exact List.mem_map_of_mem hy
  rcases List.mem_append.1 this with h | h
  · obtain ⟨v, hv, _⟩ := hR.valF y hy h; rw [hv]; simp
  · obtain ⟨hv, hp⟩ := hR.valS y hy h
    rw [hv]
    intro hc
    rw [List.range_eq_nil] at hc; omega

theorem RunOK.cellVals_eq (hR : RunOK L dims nl opn F S l arr T) (k : Nat) {h h2 : Heap L R} (hset : CellsSet F l h) :
    ∀ e ∈ F ++ S, cellVals F S h.fix (setCells T.fixDict k h2).fix e = assign (digits l) k (fun _ => 0) e := by
  intro e he
  obtain ⟨x, hx, rfl⟩ := hR.mem_of he
  unfold cellVals
  by_cases hF : x.1 ∈ F
  · rw [if_pos hF]
    obtain ⟨v, hv, _⟩ := hR.valF x hx hF
    rw [hset x hx hF v hv]
    have := hR.assign_mem k hx
    rw [hv, List.mem_singleton] at this
    exact this.symm
  · rw [if_neg hF, ← hR.cells k h2 hx, List.idxOf_append_of_notMem hF]

/-- The result of sub-task `k`. -/
def SubResult (dims : Nm → Nat) (nl : List (Nm × List Nm)) (opn P : List Nm) (l : List (Nm × List Nat × Nat))
    (arr : Nm → Arr R) (k : Nat) (r : Arr R) : Prop :=
  r.shape = (opn.filter (· ∉ P)).map dims ∧
  ∀ b : Nm → Nat, (∀ e ∈ opn.filter (· ∉ P), b e < dims e) → r.get ((opn.filter (· ∉ P)).map b) =
    einsum (fun e => Finset.range (dims e)) ((armFactors nl arr).map (Factor.pin P (assign (digits l) k fun _ => 0)))
      (opn.filter (· ∉ P)) ((opn.filter (· ∉ P)).map b)

theorem Engine.Sound.finish {E : Engine L R} {ex : L → R} (hE : E.Sound ex) (r : Arr R) :
    (E.finish 0 r).2.shape = r.shape ∧
      ∀ idx, InRange r.shape idx → ex (E.finish 0 r).1 * (E.finish 0 r).2.get idx = r.get idx := by
  unfold Engine.finish
  split
  · exact ⟨rfl, fun idx _ => by rw [hE.ex_zero, one_mul]⟩
  · next f hf =>
    split
    · next hn => exact ⟨rfl, fun idx hi => by rw [hE.nrm_none f r hf hn idx hi]; show _ * (0 : R) = 0; rw [mul_zero]⟩
    · next l a hs =>
      obtain ⟨h1, h2⟩ := hE.nrm_some f r l a hf hs
      exact ⟨h1, fun idx hi => by dsimp only; rw [add_zero]; exact h2 idx hi⟩

/-- The pre-computed cells (those below `nx1`) hold what the remaining commands need. -/
def Prepared (dims : Nm → Nat) (nl : List (Nm × List Nm)) (F S : List Nm) (l : List (Nm × List Nat × Nat))
    (arr : Nm → Arr R) (T : Task R) (E : Engine L R) (nx1 : Nat) (h1 : Heap L R) : Prop :=
  ∃ h : Heap L R, CellsSet F l h ∧ ∀ h2 : Heap L R, (∀ c, c < nx1 → h2.data c = h1.data c) →
    (∀ e ∈ S, h2.fix (F.length + S.idxOf e) < dims e) →
    ∃ h3 r, runCmds E (T.cmds.drop T.cnt) h2 = some h3 ∧ h3.fix = h2.fix ∧
      (∀ c, c < nx1 → h3.data c = h2.data c) ∧ h3.data T.output = some (E.finish 0 r) ∧
      r.shape = T.subOut.map dims ∧
      ∀ idx, r.get idx = einsum (fun e => Finset.range (dims e))
        (nl.map fun p => Factor.pin (F ++ S) (cellVals F S h.fix h2.fix) ⟨p.2, (arr p.1).get⟩) T.subOut idx

/-- Indexing a prepared task and running the sub-task at once. -/
theorem RunOK.item {E : Engine L R} {ex : L → R} (hE : E.Sound ex) (srt : List Nm → List Nm)
    (hR : RunOK L dims nl opn F S l arr T) {nx1 : Nat} {h1 : Heap L R} (hsem : Prepared dims nl F S l arr T E nx1 h1)
    (hpre : T.pre = some true) {h2 : Heap L R} (hh2 : ∀ c, c < nx1 → h2.data c = h1.data c) (k : Nat) :
    ∃ hk h3 r, T.getItem srt E k h2 = some (T, hk) ∧ T.sub.run E ex hk = some (h3, r) ∧
      (∀ c, c < nx1 → h3.data c = h1.data c) ∧ CellsSet F l h3 ∧ SubResult dims nl opn (F ++ S) l arr k r := by
  have hget : T.getItem srt E k h2 = some (T, setCells T.fixDict k h2) := by
    unfold Task.getItem Task.prepare
    rw [hpre]
    dsimp only
    rw [if_pos]
    rw [List.all_eq_true]
    intro p hp
    rw [hR.dict] at hp
    obtain ⟨i, w, hi, _⟩ := mem_fixEntries.1 hp
    have hx := List.mem_of_getElem? hi
    have := hR.assign_mem k hx
    simp only [ne_eq, decide_not, Bool.not_eq_true', decide_eq_false_iff_not]
    intro hc
    dsimp only at this
    rw [hc] at this
    simp at this
  have hcs : CellsSet F l (setCells T.fixDict k h2) := by
    intro x hx hF v hv
    have h3 := hR.cells k h2 hx
    rw [List.idxOf_append_of_mem hF] at h3
    rw [h3]
    have := hR.assign_mem k hx
    rw [hv, List.mem_singleton] at this
    exact this
  obtain ⟨h0, hset, hsem⟩ := hsem
  obtain ⟨h3, r, hr1, hr2, hr3, hr4, hr5, hr6⟩ := hsem (setCells T.fixDict k h2)
    (fun c hc => by rw [setCells_data]; exact hh2 c hc) (fun e he => by
      obtain ⟨x, hx, rfl⟩ := hR.mem_of (List.mem_append_right F he)
      have hnF : x.1 ∉ F := fun hF => (List.disjoint_of_nodup_append hR.nodup) hF he
      rw [← List.idxOf_append_of_notMem hnF, hR.cells k h2 hx]
      have := hR.assign_mem k hx
      rw [(hR.valS x hx he).1, List.mem_range] at this
      exact this)
  obtain ⟨hf1, hf2⟩ := hE.finish r
  have hsub : T.sub.run E ex (setCells T.fixDict k h2) =
      some (h3, ⟨(E.finish 0 r).2.shape, fun idx => ex (E.finish 0 r).1 * (E.finish 0 r).2.get idx⟩) := by
    unfold Task.run
    rw [show T.sub.cmds = T.cmds.drop T.cnt from rfl, hr1]
    dsimp only
    rw [show T.sub.output = T.output from rfl, hr4]
  refine ⟨_, h3, _, hget, hsub, fun c hc => by rw [hr3 c hc, setCells_data]; exact hh2 c hc,
    (by intro x hx hF v hv; rw [hr2]; exact hcs x hx hF v hv), ?_⟩
  rw [hR.task.subOut] at hr5 hr6
  refine ⟨by rw [← hr5]; exact hf1, fun b hb => ?_⟩
  dsimp only
  rw [hf2 _ (by rw [hr5]; exact inRange_map.2 hb), hr6]
  unfold armFactors
  rw [List.map_map]
  congr 1
  refine List.map_congr_left fun p _ => ?_
  exact Factor.pin_congr (hR.cellVals_eq k hset) _

/-- Running the sub-tasks once the data are prepared. -/
theorem RunOK.runAll {E : Engine L R} {ex : L → R} (hE : E.Sound ex) (srt : List Nm → List Nm)
    (hR : RunOK L dims nl opn F S l arr T) {nx1 : Nat} {h1 : Heap L R} (hsem : Prepared dims nl F S l arr T E nx1 h1)
    (hpre : T.pre = some true) {lst : List Nat} (hlst : lst.Nodup) {h2 : Heap L R}
    (hh2 : ∀ c, c < nx1 → h2.data c = h1.data c) (hs2 : CellsSet F l h2) {d : Dict Nat (Arr R)}
    (hd : ∀ k ∈ lst, k ∉ d.keys) :
    ∃ h' res, T.runAll srt E ex lst h2 d = some (T, h', d ++ res) ∧ res.map Prod.fst = lst ∧ CellsSet F l h' ∧
      ∀ p ∈ res, SubResult dims nl opn (F ++ S) l arr p.1 p.2 := by
  induction lst generalizing h2 d with
  | nil => exact ⟨h2, [], by rw [Task.runAll, List.append_nil], rfl, hs2, by simp⟩
  | cons k ks ih =>
    rw [List.nodup_cons] at hlst
    obtain ⟨hk, h3, r, hget, hsub, hh3, hs3, hres⟩ := hR.item hE srt hsem hpre hh2 k
    have hd' : k ∉ d.keys := hd k (by simp)
    obtain ⟨h', res, k1, k2, k3, k4⟩ := ih hlst.2 (h2 := h3) hh3 hs3 (d := d ++ [(k, r)])
      (fun j hj hm => by
        rw [Dict.keys_append, List.mem_append] at hm
        rcases hm with hm | hm
        · exact hd j (by simp [hj]) hm
        · have : j = k := by simpa [Dict.keys] using hm
          exact hlst.1 (this ▸ hj))
    refine ⟨h', (k, r) :: res, ?_, ?_, k3, ?_⟩
    · rw [Task.runAll, hget]
      dsimp only
      rw [hsub]
      dsimp only
      rw [Dict.set_eq_append hd', k1]
      simp
    · rw [List.map_cons, k2]
    · intro p hp
      rcases List.mem_cons.1 hp with rfl | hp
      · exact hres
      · exact k4 p hp

/-- Merging the results of sub-tasks. -/
theorem RunOK.merge (hR : RunOK L dims nl opn F S l arr T) {res : Dict Nat (Arr R)} (hne : res ≠ [])
    (hres : ∀ p ∈ res, SubResult dims nl opn (F ++ S) l arr p.1 p.2) :
    ∃ r, T.merge res = some r ∧ r.shape = opn.map dims ∧
      ∀ b : Nm → Nat, (∀ e ∈ opn, b e < dims e) → r.get (opn.map b) =
        ((res.map Prod.fst).map fun k =>
          sliceTerm dims (armFactors nl arr) opn (F ++ S) (assign (digits l) k fun _ => 0) b).sum := by
  unfold Task.merge
  rw [hR.task.openE]
  dsimp only
  by_cases hsimple : T.length = 1 ∨ T.shape = []
  · rw [if_pos hsimple]
    have hdis : ∀ e ∈ opn, e ∉ F ++ S := by
      intro e he hm
      rcases hsimple with h1 | h1
      · rcases List.mem_append.1 hm with h | h
        · exact hR.opn_F e he h
        · exact hR.proper h1 e he h
      · rw [hR.task.shape, List.map_eq_nil_iff] at h1
        rw [h1] at he; simp at he
    have hfil : opn.filter (· ∉ F ++ S) = opn := List.filter_eq_self.2 fun e he => by
      simp only [decide_eq_true_eq]; exact hdis e he
    refine ⟨_, rfl, ?_, fun b hb => ?_⟩
    · cases res with
      | nil => exact absurd rfl hne
      | cons p res =>
        have := (hres p (by simp)).1
        rw [hfil] at this
        exact this
    · show ((res.map Prod.snd).map fun a => a.get (opn.map b)).sum = _
      rw [List.map_map, List.map_map]
      congr 1
      refine List.map_congr_left fun p hp => ?_
      simp only [Function.comp]
      have := (hres p hp).2 b (by rw [hfil]; exact hb)
      unfold sliceTerm
      rw [if_pos fun e he hm => absurd hm (hdis e he), ← this, hfil]
  · rw [if_neg hsimple]
    have hsubn : T.subOut.Nodup := by rw [hR.task.subOut]; exact hR.opn_nodup.filter _
    have hsub : ∀ e ∈ T.subOut, e ∈ opn := by
      rw [hR.task.subOut]; exact fun e he => (List.mem_filter.1 he).1
    have hax := mergeAxes_ok hR.opn_nodup hsubn hsub
    have hids : ∀ e, e ∈ opn.filter (· ∉ T.subOut) ↔ e ∈ opn ∧ e ∈ F ++ S := by
      intro e
      rw [hR.task.subOut]
      simp only [List.mem_filter, decide_eq_true_eq]
      tauto
    have hdec : ∀ (k : Nat), ∀ e ∈ opn.filter (· ∉ T.subOut),
        (mergeAx T.subOut T.fixDict k []).get? e = some (assign (digits l) k (fun _ => 0) e) ∧
          assign (digits l) k (fun _ => 0) e < dims e := by
      intro k e he
      obtain ⟨he1, he2⟩ := (hids e).1 he
      have heS : e ∈ S := (List.mem_append.1 he2).resolve_left (hR.opn_F e he1)
      obtain ⟨x, hx, rfl⟩ := hR.mem_of he2
      obtain ⟨hv1, hv2⟩ := hR.valS x hx heS
      have h1 := mergeAx_eq (sub := T.subOut) (d := fixEntries 0 l) (by rw [fixEntries_edges, hR.edges]; exact hR.nodup)
        (fun p hp hc => by
          rw [hR.task.subOut, List.mem_filter, decide_eq_true_eq, ← hR.edges, ← fixEntries_edges 0] at hc
          exact hc.2 (List.mem_map.2 ⟨p, hp, rfl⟩)) (k := k) (ax := []) (fun _ => 0) (hR.entry hx) hv1 hv2
      rw [fixEntries_pairs, ← hR.dict] at h1
      refine ⟨h1, ?_⟩
      have := hR.assign_mem k hx
      rw [hv1, List.mem_range] at this
      exact this
    rw [if_pos]
    · refine ⟨_, rfl, hR.task.shape, fun b hb => ?_⟩
      dsimp only
      rw [List.map_map]
      congr 1
      refine List.map_congr_left fun p hp => ?_
      simp only [Function.comp]
      unfold sliceTerm
      have hcond : ((opn.filter (· ∉ T.subOut)).map (coord opn (opn.map b)) =
          (opn.filter (· ∉ T.subOut)).map fun e => ((mergeAx T.subOut T.fixDict p.1 []).get? e).getD 0) ↔
          ∀ e ∈ opn, e ∈ F ++ S → assign (digits l) p.1 (fun _ => 0) e = b e := by
        rw [List.map_inj_left]
        constructor
        · intro h e he hm
          have hi := (hids e).2 ⟨he, hm⟩
          have := h e hi
          rw [coord_map he, (hdec p.1 e hi).1] at this
          exact this.symm
        · intro h e hi
          obtain ⟨he, hm⟩ := (hids e).1 hi
          rw [coord_map he, (hdec p.1 e hi).1]
          exact (h e he hm).symm
      have hval : p.2.get (T.subOut.map (coord opn (opn.map b))) = einsum (fun e => Finset.range (dims e))
          ((armFactors nl arr).map (Factor.pin (F ++ S) (assign (digits l) p.1 fun _ => 0)))
          (opn.filter (· ∉ F ++ S)) ((opn.filter (· ∉ F ++ S)).map b) := by
        rw [List.map_congr_left (g := b) fun e he => coord_map (hsub e he), hR.task.subOut]
        exact (hres p hp).2 b fun e he => hb e (List.mem_filter.1 he).1
      by_cases hA : ∀ e ∈ opn, e ∈ F ++ S → assign (digits l) p.1 (fun _ => 0) e = b e
      · rw [if_pos (hcond.2 hA), if_pos hA, hval]
      · rw [if_neg fun hc => hA (hcond.1 hc), if_neg hA]
    · refine ⟨hne, by rw [hR.task.shape, List.length_map], hax.1, by rw [hax.2, hR.task.shape, List.length_map], hsub, ?_⟩
      rw [List.all_eq_true]
      intro p hp
      unfold mergeFits
      rw [Bool.and_eq_true, List.all_eq_true, decide_eq_true_eq]
      refine ⟨fun e he => ?_, ?_⟩
      · obtain ⟨h1, h2⟩ := hdec p.1 e he
        rw [h1]
        simp only [decide_eq_true_eq]
        rw [hR.task.shape, coord_map ((hids e).1 he).1]
        exact h2
      · rw [(hres p hp).1, ← hR.task.subOut]
        refine List.map_congr_left fun e he => ?_
        rw [hR.task.shape, coord_map (hsub e he)]

/-- Loading the data writes the array of every node into its cell. -/
theorem RunOK.load {srt : List Nm → List Nm} (hsrt : ∀ l, (srt l).Perm l) (hR : RunOK L dims nl opn F S l arr T)
    (hbind : srt T.data.keys = srt (nl.map Prod.fst)) (T' : Task R) (h : Heap L R) (hi : T'.inputs = T.inputs)
    (hda : T'.data = T.data) : ∃ h', T'.loadData srt h = some ({ T' with pre := some false }, h') ∧ h'.fix = h.fix ∧
      ∀ p ∈ nl, CellHolds dims T.inputs h' p.1 p.2 0 (arr p.1) := by
  have hkin : T.inputs.keys = nl.map Prod.fst := by rw [hR.task.inputs, inputs_keys]
  have hinj : ∀ n m c, T.inputs.get? n = some c → T.inputs.get? m = some c → n = m := by
    intro n m c hn hm
    rw [hR.task.inputs] at hn hm
    have h1 := inputs_get? hn
    rw [inputs_get? hm] at h1
    exact (Option.some.inj h1).symm
  obtain ⟨h', k1, k2, k3, _⟩ := loadCells_ok (data := T.data) hinj (l := srt (nl.map Prod.fst)) (fun n hn => by
    rw [hkin]; exact ⟨(hsrt _).mem_iff.1 hn, hR.data.mem_iff.2 ((hsrt _).mem_iff.1 hn)⟩) h
  refine ⟨h', ?_, k2, fun p hp => ?_⟩
  · unfold Task.loadData
    rw [hi, hda, if_pos, hbind, hkin, k1]
    have h1 := congrArg List.length hkin
    have h2 := hR.data.length_eq
    unfold Dict.keys at h1 h2
    rw [List.length_map] at h1 h2
    omega
  · have hm : p.1 ∈ nl.map Prod.fst := List.mem_map_of_mem hp
    obtain ⟨c, hc⟩ := Dict.exists_get? (hkin ▸ hm)
    obtain ⟨ha, hs⟩ := hR.arrs p hp
    exact ⟨c, hc, k3 p.1 ((hsrt _).mem_iff.2 hm) c _ hc ha, hs⟩

theorem RunOK.withPre (hR : RunOK L dims nl opn F S l arr T) (b : Option Bool) :
    RunOK L dims nl opn F S l arr { T with pre := b } :=
  ⟨⟨hR.task.inputs, hR.task.openE, hR.task.shape, hR.task.subOut, hR.task.sem⟩, hR.names, hR.opn_nodup, hR.opn_F,
    hR.edges, hR.nodup, hR.dict, hR.valF, hR.valS, hR.data, hR.arrs, hR.proper⟩

/-- Running the commands that do not depend on the sub-task. -/
theorem RunOK.precompute {E : Engine L R} {ex : L → R} (hE : E.Sound ex) (hR : RunOK L dims nl opn F S l arr T)
    {hb : Heap L R} (hsb : CellsSet F l hb) (hcells : ∀ p ∈ nl, CellHolds dims T.inputs hb p.1 p.2 0 (arr p.1)) :
    ∃ nx1 h1, runCmds { E with nrm := none } (T.cmds.take T.cnt) hb = some h1 ∧ h1.fix = hb.fix ∧
      Prepared dims nl F S l arr { T with pre := some true } E nx1 h1 := by
  obtain ⟨nx1, hsem⟩ := hR.task.sem
  obtain ⟨h1, hr1, hf1, hsem'⟩ := hsem { E with nrm := none } E hb arr rfl hE.ord hE.ord hcells (fun e he => by
    obtain ⟨x, hx, rfl⟩ := hR.mem_of (List.mem_append_left S he)
    obtain ⟨v, hv, hlt⟩ := hR.valF x hx he
    rw [hsb x hx he v hv]; exact hlt)
  exact ⟨nx1, h1, hr1, hf1, hb, hsb, hsem'⟩

/-- `execute` computes the sum of the contributions of the listed sub-tasks. -/
theorem RunOK.execute {E : Engine L R} {ex : L → R} (hE : E.Sound ex) {srt : List Nm → List Nm}
    (hsrt : ∀ l, (srt l).Perm l) (hR : RunOK L dims nl opn F S l arr T) (hbind : srt T.data.keys = srt (nl.map Prod.fst))
    {h : Heap L R} (hset : CellsSet F l h)
    {lst : Option (List Nat)} (hlst : (lst.getD (List.range T.length)).Nodup)
    (hne : lst.getD (List.range T.length) ≠ []) :
    ∃ h' r, T.execute srt E ex lst h = some ({ T with pre := some true }, h', r) ∧ CellsSet F l h' ∧
      r.shape = opn.map dims ∧
      ∀ b : Nm → Nat, (∀ e ∈ opn, b e < dims e) → r.get (opn.map b) =
        ((lst.getD (List.range T.length)).map fun k =>
          sliceTerm dims (armFactors nl arr) opn (F ++ S) (assign (digits l) k fun _ => 0) b).sum := by
  have hload := fun T' h => hR.load hsrt hbind T' h
  obtain ⟨ha, hl1, hl2, _⟩ := hload T h rfl rfl
  obtain ⟨hb, hl3, hl4, hl5⟩ := hload { T with pre := some false } ha rfl rfl
  have hsb : CellsSet F l hb := by intro x hx hF v hv; rw [hl4, hl2]; exact hset x hx hF v hv
  let T1 : Task R := { T with pre := some true }
  obtain ⟨nx1, h1, hr1, hf1, hsem'⟩ := hR.precompute hE hsb hl5
  have hR1 : RunOK L dims nl opn F S l arr T1 := hR.withPre _
  obtain ⟨h', res, k1, k2, k3, k4⟩ := hR1.runAll hE srt hsem' rfl hlst (h2 := h1) (fun _ _ => rfl)
    (by intro x hx hF v hv; rw [hf1]; exact hsb x hx hF v hv) (d := []) (by simp [Dict.keys])
  have hfirst : ∀ (k : Nat) (ks : List Nat) (d : Dict Nat (Arr R)),
      Task.runAll srt E ex { T with pre := some false } (k :: ks) ha d = T1.runAll srt E ex (k :: ks) h1 d := by
    intro k ks d
    have hg : Task.getItem srt E { T with pre := some false } k ha = T1.getItem srt E k h1 := by
      unfold Task.getItem Task.prepare
      dsimp only
      rw [hl3]
      dsimp only
      rw [hr1]
    rw [Task.runAll, Task.runAll, hg]
  have hres0 : res ≠ [] := by
    intro hc
    rw [hc] at k2
    exact hne k2.symm
  obtain ⟨r, hm1, hm2, hm3⟩ := hR1.merge hres0 k4
  refine ⟨h', r, ?_, k3, hm2, fun b hb => by rw [hm3 b hb, k2]⟩
  unfold Task.execute
  rw [hl1]
  dsimp only
  cases hL : lst.getD (List.range T.length) with
  | nil => exact absurd hL hne
  | cons k ks =>
    rw [hfirst, ← hL, k1]
    dsimp only
    rw [List.nil_append, hm1]

end

end Verif
