import Verif.Model.Compile
import Verif.Lemmas.TN
/-! # Helper lemmas: fix commands and the heap -/

set_option linter.unusedSectionVars false

namespace Verif

variable {R : Type} [CommSemiring R] {L : Type} [AddCommMonoid L]

/-- The pinned positions of a list of legs, counted from `off`. -/
theorem legPins_get? (cell : Nm → Option Nat) (legs : List Nm) (off p : Nat) :
    Dict.get? ((legs.zipIdx off).filterMap fun q => (cell q.1).map fun c => (q.2, c)) p =
      if off ≤ p then (legs[p - off]?).bind cell else none := by
  induction legs generalizing off with
  | nil => simp
  | cons e es ih =>
    rw [List.zipIdx_cons, List.filterMap_cons]
    cases hc : cell e with
    | none =>
      simp only [Option.map_none]
      rw [ih]
      by_cases h1 : off + 1 ≤ p
      · rw [if_pos h1, if_pos (by omega)]
        rw [show p - off = (p - (off + 1)) + 1 by omega, List.getElem?_cons_succ]
      · rw [if_neg h1]
        by_cases h2 : off ≤ p
        · rw [if_pos h2, show p - off = 0 by omega]; simp [hc]
        · rw [if_neg h2]
    | some c =>
      simp only [Option.map_some]
      rw [Dict.get?_cons, ih]
      by_cases h0 : off = p
      · subst h0; simp [hc]
      · rw [if_neg h0]
        by_cases h1 : off + 1 ≤ p
        · rw [if_pos h1, if_pos (by omega)]
          rw [show p - off = (p - (off + 1)) + 1 by omega, List.getElem?_cons_succ]
        · rw [if_neg h1, if_neg (by omega)]

theorem legPins_get?_zero (cell : Nm → Option Nat) (legs : List Nm) (p : Nat) :
    Dict.get? (legPins cell legs) p = (legs[p]?).bind cell := by
  have := legPins_get? cell legs 0 p
  simpa [legPins] using this

theorem legPins_keys_nodup (cell : Nm → Option Nat) (legs : List Nm) (off : Nat) :
    ((legs.zipIdx off).filterMap fun q => (cell q.1).map fun c => (q.2, c)).map Prod.fst |>.Nodup := by
  have hsub : (((legs.zipIdx off).filterMap fun q => (cell q.1).map fun c => (q.2, c)).map Prod.fst).Sublist
      ((legs.zipIdx off).map Prod.snd) := by
    generalize legs.zipIdx off = z
    induction z with
    | nil => simp
    | cons q z ih =>
      rw [List.filterMap_cons]
      cases hc : cell q.1 with
      | none => simp only [Option.map_none, List.map_cons]; exact ih.cons _
      | some c => simp only [Option.map_some, List.map_cons]; exact ih.cons_cons _
  refine hsub.nodup ?_
  rw [List.zipIdx_map_snd]
  exact List.nodup_range'

theorem spliceIdx_eq {D : Dict Nat Nat} {cell : Nm → Option Nat} {fix : Nat → Nat} {legs : List Nm} {off : Nat}
    (hD : ∀ (q : Nat) e, legs[q]? = some e → D.get? (off + q) = (cell e).map fix) (b : Nm → Nat) :
    spliceIdx D legs.length off ((legs.filter fun e => (cell e).isNone).map b) =
      legs.map fun e => ((cell e).map fix).getD (b e) := by
  induction legs generalizing off with
  | nil => rfl
  | cons e es ih =>
    have h0 := hD 0 e rfl
    have hs : ∀ (q : Nat) e', es[q]? = some e' → D.get? (off + 1 + q) = (cell e').map fix := by
      intro q e' h
      rw [show off + 1 + q = off + (q + 1) by omega]
      exact hD (q + 1) e' (by simpa using h)
    rw [Nat.add_zero] at h0
    rw [List.length_cons, spliceIdx, h0, List.filter_cons]
    cases hc : cell e with
    | none => simp [ih hs, hc]
    | some c => simp [ih hs, hc]

theorem zipIdx_filter_shape {dims : Nm → Nat} {cell : Nm → Option Nat} {idx : List Nat} {legs : List Nm} {off : Nat}
    (h : ∀ (q : Nat) e, legs[q]? = some e → (off + q ∈ idx ↔ cell e ≠ none)) :
    (((legs.map dims).zipIdx off).filter fun p => p.2 ∉ idx).map Prod.fst =
      (legs.filter fun e => (cell e).isNone).map dims := by
  induction legs generalizing off with
  | nil => rfl
  | cons e es ih =>
    have h0 := h 0 e rfl
    have hs : ∀ (q : Nat) e', es[q]? = some e' → (off + 1 + q ∈ idx ↔ cell e' ≠ none) := by
      intro q e' hq
      rw [show off + 1 + q = off + (q + 1) by omega]
      exact h (q + 1) e' (by simpa using hq)
    rw [Nat.add_zero] at h0
    rw [List.map_cons, List.zipIdx_cons, List.filter_cons, List.filter_cons]
    cases hc : cell e with
    | none =>
      have : off ∉ idx := by rw [h0, hc]; simp
      rw [if_pos (by simpa using this), if_pos (by simp), List.map_cons, List.map_cons, ih hs]
    | some c =>
      have : off ∈ idx := by rw [h0, hc]; simp
      rw [if_neg (by simpa using this), if_neg (by simp), ih hs]

/-- A fix command applied to an array with dimensions `dims` on its legs. -/
theorem fixAxes_eq {dims : Nm → Nat} {cell : Nm → Option Nat} {fix : Nat → Nat} {legs : List Nm} {a : Arr R}
    (hs : a.shape = legs.map dims) (hr : ∀ e ∈ legs, ∀ c, cell e = some c → fix c < dims e) :
    ∃ a' : Arr R, a.fixAxes ((legPins cell legs).map Prod.fst) (((legPins cell legs).map Prod.snd).map fix) = some a' ∧
      a'.shape = (legs.filter fun e => (cell e).isNone).map dims ∧
      ∀ b : Nm → Nat, a'.get ((legs.filter fun e => (cell e).isNone).map b) =
        a.get (legs.map fun e => ((cell e).map fix).getD (b e)) := by
  have hzip : ((legPins cell legs).map Prod.fst).zip (((legPins cell legs).map Prod.snd).map fix) =
      (legPins cell legs).map fun p => (p.1, fix p.2) := by
    rw [List.map_map, List.zip_map', Function.comp_def]
  have hget : ∀ p, Dict.get? ((legPins cell legs).map fun p => (p.1, fix p.2)) p =
      ((legs[p]?).bind cell).map fix := by
    intro p
    rw [← legPins_get?_zero]
    exact Dict.get?_map_val (legPins cell legs) (fun _ c => fix c) p
  have hmem : ∀ p, p ∈ (legPins cell legs).map Prod.fst ↔ ∃ e, legs[p]? = some e ∧ cell e ≠ none := by
    intro p
    show p ∈ Dict.keys (legPins cell legs) ↔ _
    rw [← Dict.get?_isSome, legPins_get?_zero]
    cases h : legs[p]? with
    | none => simp
    | some e => simp [Option.isSome_iff_ne_none]
  unfold Arr.fixAxes
  rw [hzip, if_pos]
  · refine ⟨_, rfl, ?_, fun b => ?_⟩
    · dsimp only
      rw [hs]
      refine zipIdx_filter_shape fun q e hq => ?_
      rw [Nat.zero_add, hmem]
      constructor
      · rintro ⟨e', h1, h2⟩; rw [hq] at h1; cases h1; exact h2
      · intro h; exact ⟨e, hq, h⟩
    · dsimp only
      rw [hs, List.length_map]
      refine congrArg a.get (spliceIdx_eq (fun q e hq => ?_) b)
      rw [Nat.zero_add, hget, hq]; rfl
  · refine ⟨legPins_keys_nodup cell legs 0, by simp, ?_⟩
    rw [List.all_eq_true]
    rintro ⟨p, v⟩ hp
    rw [List.mem_map] at hp
    obtain ⟨⟨p', c⟩, hpc, heq⟩ := hp
    simp only [Prod.mk.injEq] at heq
    obtain ⟨rfl, rfl⟩ := heq
    have := Dict.get?_of_mem (d := legPins cell legs) (legPins_keys_nodup cell legs 0) hpc
    rw [legPins_get?_zero, Option.bind_eq_some_iff] at this
    obtain ⟨e, he, hc⟩ := this
    have h2 : a.shape[p']? = some (dims e) := by rw [hs, List.getElem?_map, he]; rfl
    dsimp only
    rw [h2]
    simp only [decide_eq_true_eq]
    exact hr e (List.mem_of_getElem? he) c hc

/-- The cell of a node holds an array with dimensions `dims` on the given legs. -/
def CellHolds (dims : Nm → Nat) (ref : Dict Nm Nat) (h : Heap L R) (n : Nm) (legs : List Nm) (s : L) (a : Arr R) :
    Prop :=
  ∃ c, ref.get? n = some c ∧ h.data c = some (s, a) ∧ a.shape = legs.map dims

/-- Fix commands exist for all nodes and do what they should. -/
theorem genFix_ok (dims : Nm → Nat) (cell : Nm → Option Nat) {ns : List (Nm × List Nm)} (hnd : (ns.map Prod.fst).Nodup)
    {ref : Dict Nm Nat} {nx : Nat} (hlt : ∀ n c, ref.get? n = some c → c < nx)
    (hall : ∀ p ∈ ns, p.1 ∈ ref.keys) :
    ∃ cmds ref' nx', genFix cell ns ref nx = some (cmds, ref', nx') ∧ nx ≤ nx' ∧
      (∀ n c, ref'.get? n = some c → c < nx') ∧
      (∀ n, n ∉ ns.map Prod.fst → ref'.get? n = ref.get? n) ∧
      (∀ n, n ∈ ref'.keys ↔ n ∈ ref.keys) ∧
      ∀ (E : Engine L R) (h : Heap L R) (arr : Nm → L × Arr R),
        (∀ p ∈ ns, CellHolds dims ref h p.1 p.2 (arr p.1).1 (arr p.1).2) →
        (∀ p ∈ ns, ∀ e ∈ p.2, ∀ c, cell e = some c → h.fix c < dims e) →
        ∃ h', runCmds E cmds h = some h' ∧ h'.fix = h.fix ∧ (∀ c, c < nx → h'.data c = h.data c) ∧
          ∀ p ∈ ns, ∃ a', CellHolds dims ref' h' p.1 (p.2.filter fun e => (cell e).isNone) (arr p.1).1 a' ∧
            ∀ b : Nm → Nat, a'.get ((p.2.filter fun e => (cell e).isNone).map b) =
              (arr p.1).2.get (p.2.map fun e => ((cell e).map h.fix).getD (b e)) := by
  induction ns generalizing ref nx with
  | nil =>
    refine ⟨[], ref, nx, rfl, le_rfl, hlt, fun _ _ => rfl, fun _ => Iff.rfl, fun E h arr _ _ => ?_⟩
    exact ⟨h, rfl, rfl, fun _ _ => rfl, fun p hp => by simp at hp⟩
  | cons q ns ih =>
    obtain ⟨n, legs⟩ := q
    rw [List.map_cons, List.nodup_cons] at hnd
    unfold genFix
    by_cases hempty : (legPins cell legs).isEmpty
    · rw [if_pos hempty]
      obtain ⟨cmds, ref', nx', hg, hle, hlt', hsame, hkeys, hrun⟩ :=
        ih hnd.2 hlt (fun p hp => hall p (by simp [hp]))
      refine ⟨cmds, ref', nx', hg, hle, hlt', fun m hm => hsame m fun hc => hm (by simp [hc]), hkeys,
        fun E h arr hcell hfix => ?_⟩
      obtain ⟨h', hr, hf, hold, hnew⟩ := hrun E h arr (fun p hp => hcell p (by simp [hp]))
        (fun p hp => hfix p (by simp [hp]))
      refine ⟨h', hr, hf, hold, fun p hp => ?_⟩
      rcases List.mem_cons.1 hp with rfl | hp
      · have hnone : ∀ e ∈ legs, cell e = none := by
          intro e he
          obtain ⟨i, hi, rfl⟩ := List.mem_iff_getElem.1 he
          have := legPins_get?_zero cell legs i
          rw [List.isEmpty_iff.1 hempty, List.getElem?_eq_getElem hi] at this
          simpa using this.symm
        have hfil : legs.filter (fun e => (cell e).isNone) = legs :=
          List.filter_eq_self.2 fun e he => by simp [hnone e he]
        obtain ⟨c, h1, h2, h3⟩ := hcell (n, legs) (by simp)
        refine ⟨(arr n).2, ⟨c, ?_, ?_, ?_⟩, fun b => ?_⟩
        · rw [hsame n hnd.1]; exact h1
        · rw [hold c (hlt n c h1)]; exact h2
        · dsimp only; rw [hfil]; exact h3
        · dsimp only
          rw [hfil]
          refine congrArg _ (List.map_congr_left fun e he => ?_)
          rw [hnone e he]; rfl
      · exact hnew p hp
    · rw [if_neg hempty]
      obtain ⟨c, hc⟩ := Dict.exists_get? (hall (n, legs) (by simp))
      obtain ⟨cmds, ref', nx', hg, hle, hlt', hsame, hkeys, hrun⟩ :=
        ih (ref := ref.set n nx) (nx := nx + 1) hnd.2 (fun m d hm => by
          rw [Dict.get?_set] at hm
          split at hm
          · cases hm; omega
          · have := hlt m d hm; omega) (fun p hp => Dict.mem_keys_set.2 (Or.inr (hall p (by simp [hp]))))
      rw [hc, hg]
      refine ⟨_, ref', nx', rfl, by omega, hlt', fun m hm => ?_, fun m => ?_, fun E h arr hcell hfix => ?_⟩
      · rw [List.map_cons, List.mem_cons, not_or] at hm
        rw [hsame m hm.2, Dict.get?_set, if_neg (Ne.symm hm.1)]
      · rw [hkeys, Dict.mem_keys_set]
        constructor
        · rintro (rfl | h)
          · exact Dict.mem_keys_of_get? hc
          · exact h
        · exact Or.inr
      · obtain ⟨c', h1, h2, h3⟩ := hcell (n, legs) (by simp)
        rw [hc] at h1
        cases h1
        obtain ⟨a', ha1, ha2, ha3⟩ := fixAxes_eq (fix := h.fix) h3 (hfix (n, legs) (by simp))
        have hstep : runCmd E h (.f c nx ((legPins cell legs).map Prod.fst) ((legPins cell legs).map Prod.snd)) =
            some (h.put nx ((arr n).1, a')) := by
          simp only [runCmd, h2, ha1]
        have hcn : c < nx := hlt n c hc
        have hput : ∀ d, d < nx → (h.put nx ((arr n).1, a')).data d = h.data d := by
          intro d hd
          show (if d = nx then _ else _) = _
          rw [if_neg (by omega)]
        obtain ⟨h', hr, hf, hold, hnew⟩ := hrun E (h.put nx ((arr n).1, a')) arr (fun p hp => by
            obtain ⟨d, k1, k2, k3⟩ := hcell p (by simp [hp])
            have hpn : n ≠ p.1 := fun hc : n = p.1 => hnd.1 (List.mem_map.2 ⟨p, hp, hc.symm⟩)
            refine ⟨d, ?_, ?_, k3⟩
            · rw [Dict.get?_set, if_neg hpn]; exact k1
            · rw [hput d (hlt _ _ k1)]; exact k2) (fun p hp => hfix p (by simp [hp]))
        refine ⟨h', ?_, hf, fun d hd => ?_, fun p hp => ?_⟩
        · rw [runCmds, hstep]; exact hr
        · rw [hold d (by omega), hput d hd]
        · rcases List.mem_cons.1 hp with rfl | hp
          · refine ⟨a', ⟨nx, ?_, ?_, ha2⟩, ha3⟩
            · rw [hsame n hnd.1, Dict.get?_set, if_pos rfl]
            · rw [hold nx (by omega)]
              show (if nx = nx then _ else _) = _
              rw [if_pos rfl]
          · exact hnew p hp

end Verif
