import Verif.Model.Algebra
import Verif.Spec.Value
import Verif.Spec.Index
import Verif.Spec.Engine
import Verif.Lemmas.AddTotal
import Verif.Lemmas.Einsum
/-! # Helper lemmas: networks made of one or two nodes on the edges `0, 1, ...` -/

set_option linter.unusedSectionVars false

namespace Verif

/-- The edge names `0, ..., r-1`. -/
def rangeLegs (r : Nat) : List Nm := (List.range r).map fun i : Nat => Nm.int i

theorem rangeLegs_length (r : Nat) : (rangeLegs r).length = r := by simp [rangeLegs]

theorem rangeLegs_nodup (r : Nat) : (rangeLegs r).Nodup :=
  (List.nodup_range).map fun a b h => by simpa using h

theorem mem_rangeLegs {r : Nat} {e : Nm} : e ∈ rangeLegs r ↔ ∃ k : Nat, k < r ∧ e = Nm.int k := by
  simp [rangeLegs, eq_comm]

theorem rangeLegs_get {r k : Nat} (h : k < r) : (rangeLegs r)[k]? = some (Nm.int k) := by
  simp [rangeLegs, h]

/-- The assignment that gives the edge `k` the `k`-th entry of a list. -/
def listAsg (l : List Nat) : Nm → Nat
  | .int n => l[n.toNat]?.getD 0
  | _ => 0

theorem listAsg_int (l : List Nat) (k : Nat) : listAsg l (Nm.int k) = l[k]?.getD 0 := by simp [listAsg]

theorem rangeLegs_map (l : List Nat) {r : Nat} (h : r ≤ l.length) : (rangeLegs r).map (listAsg l) = l.take r := by
  apply List.ext_getElem?
  intro k
  by_cases hk : k < r
  · rw [List.getElem?_map, rangeLegs_get hk, Option.map_some, listAsg_int, List.getElem?_take, if_pos hk,
      List.getElem?_eq_getElem (by omega)]
    rfl
  · rw [List.getElem?_eq_none (by simp [rangeLegs]; omega), List.getElem?_eq_none (by simp; omega)]

theorem rangeLegs_map_full (l : List Nat) : (rangeLegs l.length).map (listAsg l) = l := by
  rw [rangeLegs_map l (Nat.le_refl _), List.take_length]

variable {τ : Type} [HasShape τ]

/-- The edges `0, ..., r-1` have the dimensions `S` and are not fixed. -/
def HasDims (tn : TN τ) (S : List Nat) : Prop :=
  (∀ e, e ∈ tn.edges.keys ↔ e ∈ rangeLegs S.length) ∧ ∀ (k : Nat) (d : Nat), S[k]? = some d →
    tn.edges.get? (Nm.int k) = some { dim := some d, fix := none }

theorem HasDims.dom {tn : TN τ} {S : List Nat} (h : HasDims tn S) {k d : Nat} (hk : S[k]? = some d) :
    tn.dom (Nm.int k) = Finset.range d := by
  unfold TN.dom; rw [h.2 k d hk]; rfl

theorem listAsg_dims {S sh : List Nat} (h : sh = S.take sh.length) :
    some ((List.map (listAsg S) (rangeLegs sh.length)).map some) = some (sh.map some) := by
  have : sh.length ≤ S.length := by
    have := congrArg List.length h
    rw [List.length_take] at this; omega
  rw [rangeLegs_map S this, ← h]

/-- One node on the edges `0, ..., r-1` added to a network on such edges. -/
theorem addNode_range {tn : TN τ} {i : Nm} {t : τ} {o : Bool} {S0 S sh : List Nat} (hd : HasDims tn S0)
    (hi : i ∉ tn.nodes.keys) (hs : HasShape.shape t = some (sh.map some)) (h0 : S0 = S.take S0.length)
    (h1 : sh = S.take sh.length) (hS : S.length ≤ max S0.length sh.length) :
    ∃ tn', tn.addNode none i none t o = (tn', .ok i) ∧ HasDims tn' S ∧
      tn'.nodes = tn.nodes ++ [(i, ⟨rangeLegs sh.length, some t, true⟩)] ∧
      tn'.adj = TN.addAdjs tn.adj ((rangeLegs sh.length).map fun e => (i, e)) ∧
      tn'.openE = tn.openE ++ (if o then rangeLegs sh.length else []) ∧ tn'.idCount = tn.idCount := by
  have l0 : S0.length ≤ S.length := by
    have := congrArg List.length h0
    rw [List.length_take] at this; omega
  have l1 : sh.length ≤ S.length := by
    have := congrArg List.length h1
    rw [List.length_take] at this; omega
  have g0 : ∀ k d : Nat, S0[k]? = some d → S[k]? = some d := by
    intro k d hk
    rw [h0, List.getElem?_take] at hk
    split at hk
    · exact hk
    · simp at hk
  have hl : TN.newLegs none (HasShape.shape t) = some (rangeLegs sh.length, true) := by
    rw [hs]; simp [TN.newLegs, rangeLegs]
  obtain ⟨tn', hok⟩ := TN.addNode_total_gen (tn := tn) (name := none) (ident := i) (edges := none) (t := t)
    (D := listAsg S) (isOpen := o) rfl hl (by rw [hs]; exact (listAsg_dims h1).symm) (by
      intro e he er her
      obtain ⟨k, hk, rfl⟩ := mem_rangeLegs.1 he
      have := (hd.1 _).1 (Dict.mem_keys_of_get? her)
      obtain ⟨k', hk', hkk⟩ := mem_rangeLegs.1 this
      have hkk : k = k' := by simpa using hkk
      subst hkk
      have h2 := hd.2 k _ (List.getElem?_eq_getElem hk')
      rw [h2] at her
      cases her
      right
      rw [listAsg_int, g0 k _ (List.getElem?_eq_getElem hk')]
      rfl)
  refine ⟨tn', hok, ?_⟩
  obtain ⟨-, -, legs, frozen, E', h3, rfl, h5, h6⟩ := TN.addNode_ok hok
  rw [hl] at h3
  cases h3
  obtain ⟨-, h7⟩ := h6 _ hs
  have hset : tn.nodes.set i ⟨rangeLegs sh.length, some t, true⟩
      = tn.nodes ++ [(i, ⟨rangeLegs sh.length, some t, true⟩)] := by
    have : tn.nodes.has i = false := Dict.has_eq_false.2 hi
    clear hok h5 h6 h7 hd hs hl
    revert this
    induction tn.nodes with
    | nil => intro _; rfl
    | cons p ts ih =>
      intro h
      obtain ⟨k, v⟩ := p
      rw [Dict.has_eq_false] at h
      have hk : k ≠ i := fun e => h (by simp [Dict.keys, e])
      have : Dict.has ts i = false := Dict.has_eq_false.2 fun hm => h (List.mem_cons_of_mem _ hm)
      rw [Dict.set, if_neg hk, ih this]; rfl
  refine ⟨⟨fun e => ?_, fun k d hk => ?_⟩, by simpa using hset, rfl, rfl, rfl⟩
  · rw [h5.keys, hd.1, mem_rangeLegs, mem_rangeLegs, mem_rangeLegs]
    constructor
    · rintro (⟨k, hk, rfl⟩ | ⟨k, hk, rfl⟩)
      · exact ⟨k, by omega, rfl⟩
      · exact ⟨k, by omega, rfl⟩
    · rintro ⟨k, hk, rfl⟩
      by_cases h : k < S0.length
      · exact Or.inl ⟨k, h, rfl⟩
      · exact Or.inr ⟨k, by omega, rfl⟩
  · have hkS : k < S.length := (List.getElem?_eq_some_iff.1 hk).1
    by_cases h : k < S0.length
    · have hk0 : S0[k]? = some d := by
        rw [h0, List.getElem?_take, if_pos h]; exact hk
      obtain ⟨r', hr', hf, hdim⟩ := h5.grow.ent _ _ (hd.2 k d hk0)
      show Dict.get? E' _ = _
      rw [hr']
      obtain ⟨dm, fx⟩ := r'
      have hdim := hdim d rfl
      dsimp only at hf hdim
      rw [hf, hdim]
    · have hk1 : k < sh.length := by omega
      have hksh : sh[k]? = some d := by
        rw [h1, List.getElem?_take, if_pos hk1]; exact hk
      obtain ⟨r, hr, hdim⟩ := h7 k (Nm.int k) d (rangeLegs_get hk1) (by rw [List.getElem?_map, hksh]; rfl)
      have hno : Nm.int (k : Int) ∉ tn.edges.keys := by
        rw [hd.1, mem_rangeLegs]
        rintro ⟨k', hk', he⟩
        have : k = k' := by simpa using he
        omega
      have hf := h5.nofix _ r hno hr
      show Dict.get? E' _ = _
      rw [hr]
      obtain ⟨dm, fx⟩ := r
      dsimp only at hf hdim
      rw [hf, hdim]

theorem hasDims_empty : HasDims ({} : TN τ) [] := ⟨by simp [rangeLegs, Dict.keys], by simp⟩

/-- One node on an empty network. -/
theorem oneNode {i : Nm} {t : τ} {o : Bool} {sh : List Nat} (hs : HasShape.shape t = some (sh.map some)) :
    ∃ tn', ({} : TN τ).addNode none i none t o = (tn', .ok i) ∧ HasDims tn' sh ∧
      tn'.nodes = [(i, ⟨rangeLegs sh.length, some t, true⟩)] ∧
      tn'.openE = (if o then rangeLegs sh.length else []) := by
  obtain ⟨tn', h1, h2, h3, _, h5, _⟩ := addNode_range (o := o) (i := i) (S := sh) hasDims_empty (by simp [Dict.keys]) hs
    (by simp) (by simp) (by simp)
  exact ⟨tn', h1, h2, by simpa using h3, by simpa using h5⟩

/-- The two shapes agree where both have an entry. -/
def Overlap (sa sb : List Nat) : Prop := ∀ k d d' : Nat, sa[k]? = some d → sb[k]? = some d' → d = d'

open Classical in
noncomputable instance (sa sb : List Nat) : Decidable (Overlap sa sb) := inferInstance

/-- The longer of two overlapping shapes. -/
def longer (sa sb : List Nat) : List Nat := if sa.length ≤ sb.length then sb else sa

theorem longer_left {sa sb : List Nat} (h : Overlap sa sb) : sa = (longer sa sb).take sa.length := by
  unfold longer
  split
  · next hl =>
    apply List.ext_getElem?
    intro k
    rw [List.getElem?_take]
    split
    · next hk =>
      have h1 := List.getElem?_eq_getElem hk
      have h2 := List.getElem?_eq_getElem (Nat.lt_of_lt_of_le hk hl)
      rw [h1, h2, h k _ _ h1 h2]
    · next hk => exact List.getElem?_eq_none (by omega)
  · rw [List.take_length]

theorem Overlap.symm {sa sb : List Nat} (h : Overlap sa sb) : Overlap sb sa := fun k d d' h1 h2 => (h k d' d h2 h1).symm

theorem longer_right {sa sb : List Nat} (h : Overlap sa sb) : sb = (longer sa sb).take sb.length := by
  unfold longer
  split
  · rw [List.take_length]
  · next hl =>
    have := longer_left h.symm
    rw [longer, if_pos (by omega)] at this
    exact this

theorem longer_length (sa sb : List Nat) : (longer sa sb).length ≤ max sa.length sb.length := by
  unfold longer; split <;> omega

/-- Two nodes on the edges `0, 1, ...`. -/
theorem twoNodes {ia ib : Nm} {a b : τ} {o : Bool} {sa sb : List Nat} (hne : ia ≠ ib)
    (ha : HasShape.shape a = some (sa.map some)) (hb : HasShape.shape b = some (sb.map some)) (hov : Overlap sa sb) :
    ∃ tn tn', ({} : TN τ).addNode none ia none a o = (tn, .ok ia) ∧ tn.addNode none ib none b o = (tn', .ok ib) ∧
      HasDims tn' (longer sa sb) ∧
      tn'.nodes = [(ia, ⟨rangeLegs sa.length, some a, true⟩), (ib, ⟨rangeLegs sb.length, some b, true⟩)] ∧
      tn'.openE = (if o then rangeLegs sa.length ++ rangeLegs sb.length else []) := by
  obtain ⟨tn, h1, h2, h3, h4⟩ := oneNode (o := o) (i := ia) ha
  obtain ⟨tn', k1, k2, k3, _, k5, _⟩ := addNode_range (o := o) (i := ib) (S := longer sa sb) h2
    (by rw [h3]; simp [Dict.keys, hne.symm]) hb (longer_left hov) (longer_right hov) (longer_length sa sb)
  refine ⟨tn, tn', h1, k1, k2, by rw [k3, h3]; rfl, ?_⟩
  rw [k5, h4]
  cases o <;> simp

/-! ### Sums over indices -/

variable {R : Type} [CommSemiring R]

theorem einsum_none {E : Type} [DecidableEq E] {dom : E → Finset Nat} {fs : List (Factor E R)} {opn : List E}
    {idx : List Nat} (h : ∀ a : E → Nat, opn.map a ≠ idx) : einsum dom fs opn idx = 0 := by
  unfold einsum
  refine (sumOver_congr fun b => ?_).trans (sumOver_zero _ _ _)
  rw [if_neg (h b)]

/-- Summing over distinct edges is summing over all indices. -/
theorem sumOver_eq_sumIdx {E : Type} [DecidableEq E] {dom : E → Finset Nat} {l : List E} {sh : List Nat}
    (hn : l.Nodup) (hl : l.length = sh.length) (hd : ∀ (k : Nat) e d, l[k]? = some e → sh[k]? = some d → dom e = Finset.range d)
    (g : List Nat → R) (a0 : E → Nat) :
    sumOver dom l (fun a => g (l.map a)) a0 = sumIdx sh g := by
  induction l generalizing sh g a0 with
  | nil =>
    cases sh with
    | nil => rfl
    | cons => simp at hl
  | cons e es ih =>
    cases sh with
    | nil => simp at hl
    | cons d ds =>
      rw [sumOver_cons, sumIdx, hd 0 e d rfl rfl]
      refine Finset.sum_congr rfl fun x _ => ?_
      rw [← ih (List.nodup_cons.1 hn).2 (by simpa using hl) (fun k e' d' h1 h2 => hd (k + 1) e' d' h1 h2)
        (fun idx => g (x :: idx)) (Function.update a0 e x)]
      refine sumOver_congr_reach fun b hb => ?_
      rw [List.map_cons, hb.1 e (List.nodup_cons.1 hn).1, Function.update_self]

theorem sumIdx_congr {sh : List Nat} {f g : List Nat → R} (h : ∀ idx, InRange sh idx → f idx = g idx) :
    sumIdx sh f = sumIdx sh g := by
  induction sh generalizing f g with
  | nil => exact h [] List.Forall₂.nil
  | cons d ds ih =>
    rw [sumIdx, sumIdx]
    exact Finset.sum_congr rfl fun x hx => ih fun idx hi => h _ (List.Forall₂.cons (Finset.mem_range.1 hx) hi)

end Verif
