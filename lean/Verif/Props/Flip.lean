import Verif.Model.Flip
import Verif.Lemmas.StemTree
import Verif.Lemmas.Einsum
/-!
# C72: flipping branches of a contraction tree
-/

namespace Verif

namespace PTree

/-! ## Specification -/

/-- The indices of the initial tensors of a tree. -/
def inds : PTree → List Nm
  | leaf _ s => s
  | node _ _ _ a b => a.inds ++ b.inds

/-- Every intermediate result of the tree has exactly those indices of its tensors that occur outside of it, `ext` being the indices that occur
outside of the whole tree. -/
def Exact : (Nm → Prop) → PTree → Prop
  | _, leaf _ _ => True
  | ext, node _ _ s a b => (∀ e, e ∈ s ↔ (e ∈ a.inds ∨ e ∈ b.inds) ∧ ext e) ∧ a.Exact (fun e => ext e ∨ e ∈ b.inds) ∧
    b.Exact fun e => ext e ∨ e ∈ a.inds

/-- The tensors of a tree with their indices. -/
def facts {R : Type} (tens : Nm → List Nat → R) : PTree → List (Factor Nm R)
  | leaf n s => [⟨s, tens n⟩]
  | node _ _ _ a b => a.facts tens ++ b.facts tens

/-- Contracting along a tree: the children first, then the two results. -/
def run {R : Type} [CommSemiring R] (dom : Nm → Finset Nat) (tens : Nm → List Nat → R) : PTree → List Nat → R
  | leaf n _ => tens n
  | node _ _ s a b => einsum dom [⟨a.subs, a.run dom tens⟩, ⟨b.subs, b.run dom tens⟩] s

/-! ## Proofs -/

theorem mem_inds {R : Type} (tens : Nm → List Nat → R) : ∀ (t : PTree) (e : Nm), e ∈ t.inds ↔ ∃ f ∈ t.facts tens, e ∈ f.legs
  | leaf n s, e => by simp [inds, facts]
  | node _ _ _ a b, e => by
    simp only [inds, facts, List.mem_append, mem_inds tens a, mem_inds tens b]
    constructor
    · rintro (⟨f, h1, h2⟩ | ⟨f, h1, h2⟩)
      · exact ⟨f, Or.inl h1, h2⟩
      · exact ⟨f, Or.inr h1, h2⟩
    · rintro ⟨f, h1 | h1, h2⟩
      · exact Or.inl ⟨f, h1, h2⟩
      · exact Or.inr ⟨f, h1, h2⟩

theorem Exact.sub {ext : Nm → Prop} {t : PTree} (h : t.Exact ext) {e : Nm} (he : e ∈ t.subs) : e ∈ t.inds := by
  cases t with
  | leaf n s => exact he
  | node new n s a b =>
    rw [inds, List.mem_append]
    exact ((h.1 e).1 he).1

theorem Exact.keep {ext : Nm → Prop} {t : PTree} (h : t.Exact ext) {e : Nm} (he : e ∈ t.inds) (hx : ext e) : e ∈ t.subs := by
  cases t with
  | leaf n s => exact he
  | node new n s a b =>
    rw [inds, List.mem_append] at he
    exact (h.1 e).2 ⟨he, hx⟩

theorem Exact.congr {ext ext' : Nm → Prop} {t : PTree} (h : t.Exact ext) (hx : ∀ e, e ∈ t.inds → (ext e ↔ ext' e)) : t.Exact ext' := by
  induction t generalizing ext ext' with
  | leaf n s => trivial
  | node new n s a b iha ihb =>
    obtain ⟨h1, h2, h3⟩ := h
    simp only [inds, List.mem_append] at hx
    refine ⟨fun e => ?_, iha h2 fun e he => or_congr_left (hx e (Or.inl he)), ihb h3 fun e he => or_congr_left (hx e (Or.inr he))⟩
    rw [h1]
    exact and_congr_right fun he => hx e he

section
variable {R : Type} [CommSemiring R]

/-- A factor of a tree may be replaced by its tensors. -/
theorem run_group {dom : Nm → Finset Nat} {tens : Nm → List Nat → R} {t : PTree} {ext : Nm → Prop} (h : t.Exact ext)
    (hr : ∀ new n s a b, t = node new n s a b → ∀ idx, t.run dom tens idx = einsum dom (t.facts tens) t.subs idx)
    {rest : List (Factor Nm R)} {opn : List Nm} (hext : ∀ e, (∃ f ∈ rest, e ∈ f.legs) ∨ e ∈ opn → e ∈ t.inds → ext e) (idx : List Nat) :
    einsum dom (⟨t.subs, t.run dom tens⟩ :: rest) opn idx = einsum dom (t.facts tens ++ rest) opn idx := by
  cases t with
  | leaf n s => rfl
  | node new n s a b =>
    have : (node new n s a b).run dom tens = einsum dom ((node new n s a b).facts tens) (node new n s a b).subs := by
      funext i; exact hr _ _ _ _ _ rfl i
    rw [this]
    refine einsum_contract_group (fun e he => (mem_inds tens _ e).1 (h.sub he)) (fun e he hx => ?_) idx
    exact h.keep ((mem_inds tens _ e).2 he) (hext e hx ((mem_inds tens _ e).2 he))

/-- Contracting along a tree with exact indices gives the sum over all other indices of the product of the tensors. -/
theorem run_eq {dom : Nm → Finset Nat} {tens : Nm → List Nat → R} : ∀ {t : PTree} {ext : Nm → Prop}, t.Exact ext →
    ∀ new n s a b, t = node new n s a b → ∀ idx, t.run dom tens idx = einsum dom (t.facts tens) t.subs idx
  | leaf _ _, _, _ => by intro _ _ _ _ _ h; cases h
  | node new n s a b, ext, h => by
    intro _ _ _ _ _ _ idx
    obtain ⟨h1, h2, h3⟩ := h
    show einsum dom [⟨a.subs, a.run dom tens⟩, ⟨b.subs, b.run dom tens⟩] s idx = _
    rw [run_group h2 (run_eq h2) (fun e he _ => ?_)]
    · rw [einsum_perm (List.perm_append_comm (l₁ := a.facts tens)), List.singleton_append, run_group h3 (run_eq h3) (fun e he _ => ?_)]
      · exact einsum_perm List.perm_append_comm _ _
      · rcases he with he | he
        · exact Or.inr ((mem_inds tens a e).2 he)
        · exact Or.inl ((h1 e).1 he).2
    · rcases he with ⟨f, hf, he⟩ | he
      · rw [List.mem_singleton] at hf
        subst hf
        exact Or.inr (h3.sub he)
      · exact Or.inl ((h1 e).1 he).2

end

/-! ### Flipping at the root -/

variable {T : Nat} {perm : List Nm → List Nm} {gt : List Nm → List Nm → Bool}

/-- What stays the same. -/
structure Kin (t t' : PTree) : Prop where
  same : Same t t'
  subs : t'.subs = t.subs
  inds : ∀ e, e ∈ t'.inds ↔ e ∈ t.inds
  size : t'.size = t.size
  node : ∀ n s, t' = leaf n s ↔ t = leaf n s
  facts : ∀ {R : Type} (tens : Nm → List Nat → R), (t'.facts tens).Perm (t.facts tens)
  mem : t'.totalCost.t ≤ t.totalCost.t

theorem Kin.refl (t : PTree) : Kin t t := ⟨.refl t, rfl, fun _ => Iff.rfl, rfl, fun _ _ => Iff.rfl, fun _ => .refl _, le_rfl⟩

theorem mk_subs (new : Bool) (n : Nm) (s : List Nm) (x y : PTree) : (mk new n s x y).subs = s := by
  unfold mk; split <;> rfl

theorem mk_inds (new : Bool) (n : Nm) (s : List Nm) (x y : PTree) (e : Nm) : e ∈ (mk new n s x y).inds ↔ e ∈ x.inds ∨ e ∈ y.inds := by
  unfold mk
  split <;> simp [inds, or_comm]

theorem mk_size (new : Bool) (n : Nm) (s : List Nm) (x y : PTree) : (mk new n s x y).size = 1 + x.size + y.size := by
  unfold mk
  split
  · rfl
  · simp only [size]; omega

theorem mk_facts {R : Type} (tens : Nm → List Nat → R) (new : Bool) (n : Nm) (s : List Nm) (x y : PTree) :
    ((mk new n s x y).facts tens).Perm (x.facts tens ++ y.facts tens) := by
  unfold mk
  split
  · exact .refl _
  · exact List.perm_append_comm

theorem mk_mem (new : Bool) (n : Nm) (s : List Nm) (x y : PTree) :
    (mk new n s x y).totalCost.t = max (max (2 ^ s.length) x.totalCost.t) y.totalCost.t := by
  unfold mk
  split
  · rfl
  · simp only [totalCost, stepCost, Cost.iadd]
    rw [max_assoc, max_comm y.totalCost.t, ← max_assoc]

theorem mk_exact {new : Bool} {n : Nm} {s : List Nm} {x y : PTree} {ext : Nm → Prop} :
    (mk new n s x y).Exact ext ↔ (∀ e, e ∈ s ↔ (e ∈ x.inds ∨ e ∈ y.inds) ∧ ext e) ∧ x.Exact (fun e => ext e ∨ e ∈ y.inds) ∧
      y.Exact fun e => ext e ∨ e ∈ x.inds := by
  unfold mk
  split
  · rfl
  · simp only [Exact]
    constructor
    · rintro ⟨h1, h2, h3⟩
      exact ⟨fun e => by rw [h1, or_comm], h3, h2⟩
    · rintro ⟨h1, h2, h3⟩
      exact ⟨fun e => by rw [h1, or_comm], h3, h2⟩

theorem mem_setMeet {a b : List Nm} {e : Nm} : e ∈ setMeet a b ↔ e ∈ a ∧ e ∈ b := by
  simp [setMeet]

theorem flipRoot_kin (t : PTree) : Kin t (flipRoot T perm gt t).1 := by
  unfold flipRoot
  split
  · next new n s b1 new1 n1 s1 b0 s0 =>
    dsimp only
    split
    · next h =>
      refine ⟨⟨?_, ?_, rfl⟩, rfl, fun e => ?_, ?_, fun n s => ⟨(fun h => by cases h), (fun h => by cases h)⟩, fun tens => ?_, ?_⟩
      · simp only [lv, mk_lv]; abel
      · simp only [inn, mk_inn]; abel
      · simp only [inds, List.mem_append, mk_inds]; tauto
      · simp only [size, mk_size]; omega
      · simp only [facts]
        refine ((mk_facts tens _ _ _ _ _).append_left _).trans ?_
        rw [← List.append_assoc, ← List.append_assoc]
        exact (List.perm_append_comm).append_right _
      · have hl : (imagSubs perm s0.subs b1.subs s b0.subs).length ≤ s1.length := by
          rcases h.2 with h | h
          · exact h.le
          · exact h.1.le
        have hp : 2 ^ (imagSubs perm s0.subs b1.subs s b0.subs).length ≤ 2 ^ s1.length := Nat.pow_le_pow_right (by norm_num) hl
        simp only [totalCost, stepCost, Cost.iadd, mk_mem]
        omega
    · exact .refl _
  · exact .refl _

theorem flipRoot_exact (hperm : ∀ l, (perm l).Perm l) {t : PTree} {ext : Nm → Prop} (h : t.Exact ext) : (flipRoot T perm gt t).1.Exact ext := by
  unfold flipRoot
  split
  · next new n s b1 new1 n1 s1 b0 s0 =>
    dsimp only
    split
    · simp only [Exact, inds, List.mem_append] at h
      obtain ⟨h1, h2, h3, h4, h5⟩ := h
      simp only [Exact, mk_exact, mk_inds]
      refine ⟨fun e => ?_, h4.congr fun e _ => ?_, fun e => ?_, h2.congr fun e _ => ?_, h5.congr fun e _ => ?_⟩
      · rw [h1]; tauto
      · tauto
      · rw [imagSubs, (hperm _).mem_iff, mem_setMeet, List.mem_append, List.mem_append, h1]
        constructor
        · rintro ⟨h6 | h6, h7⟩
          · refine ⟨Or.inr (h5.sub h6), ?_⟩
            rcases h7 with h7 | h7
            · exact Or.inl h7.2
            · exact Or.inr (h4.sub h7)
          · refine ⟨Or.inl (h2.sub h6), ?_⟩
            rcases h7 with h7 | h7
            · exact Or.inl h7.2
            · exact Or.inr (h4.sub h7)
        · rintro ⟨h6, h7⟩
          constructor
          · rcases h6 with h6 | h6
            · exact Or.inr (h2.keep h6 (by tauto))
            · exact Or.inl (h5.keep h6 (by tauto))
          · rcases h7 with h7 | h7
            · exact Or.inl ⟨by tauto, h7⟩
            · exact Or.inr (h4.keep h7 (by tauto))
      · tauto
      · tauto
    · exact h
  · exact h

theorem Kin.trans {t u v : PTree} (h : Kin t u) (k : Kin u v) : Kin t v :=
  ⟨h.same.trans k.same, k.subs.trans h.subs, fun e => (k.inds e).trans (h.inds e), k.size.trans h.size,
    fun n s => (k.node n s).trans (h.node n s), fun tens => (k.facts tens).trans (h.facts tens), k.mem.trans h.mem⟩

theorem Kin.inner {a a' b b' : PTree} (ha : Kin a a') (hb : Kin b b') (new : Bool) (n : Nm) (s : List Nm) :
    Kin (.node new n s a b) (.node new n s a' b') := by
  refine ⟨⟨?_, ?_, rfl⟩, rfl, fun e => ?_, ?_, fun n s => ⟨(fun h => by cases h), (fun h => by cases h)⟩, fun tens => ?_, ?_⟩
  · simp only [PTree.lv, ha.same.lv, hb.same.lv]
  · simp only [PTree.inn, ha.same.inn, hb.same.inn]
  · simp only [PTree.inds, List.mem_append, ha.inds, hb.inds]
  · simp only [PTree.size, ha.size, hb.size]
  · exact (ha.facts tens).append (hb.facts tens)
  · have h1 := ha.mem
    have h2 := hb.mem
    simp only [totalCost, stepCost, Cost.iadd]
    omega

theorem flipBranch_kin (k : Nat) (t : PTree) : Kin t (flipBranch T perm gt k t).1 := by
  induction k generalizing t with
  | zero => exact .refl t
  | succ k ih =>
    have h := flipRoot_kin (T := T) (perm := perm) (gt := gt) t
    unfold flipBranch
    split
    · next he => rw [he] at h; exact h
    · next he => rw [he] at h; exact h.trans ((ih _).inner (ih _) _ _ _)

theorem flipBranch_exact (hperm : ∀ l, (perm l).Perm l) (k : Nat) {t : PTree} {ext : Nm → Prop} (h : t.Exact ext) :
    (flipBranch T perm gt k t).1.Exact ext := by
  induction k generalizing t ext with
  | zero => exact h
  | succ k ih =>
    have h := flipRoot_exact (T := T) (gt := gt) hperm h
    unfold flipBranch
    split
    · next he => rw [he] at h; exact h
    · next he =>
      rw [he] at h
      obtain ⟨h1, h2, h3⟩ := h
      refine ⟨fun e => ?_, (ih h2).congr fun e _ => ?_, (ih h3).congr fun e _ => ?_⟩
      · rw [h1, (flipBranch_kin k _).inds, (flipBranch_kin k _).inds]
      · rw [(flipBranch_kin k _).inds]
      · rw [(flipBranch_kin k _).inds]

theorem flipRoot_false {t : PTree} (h : (flipRoot T perm gt t).2 = false) : (flipRoot T perm gt t).1 = t := by
  unfold flipRoot at h ⊢
  split
  · dsimp only at h ⊢
    split
    · next hc => rw [if_pos hc] at h; cases h
    · rfl
  · rfl

theorem flipBranch_false {k : Nat} {t : PTree} (h : (flipBranch T perm gt k t).2 = false) : (flipBranch T perm gt k t).1 = t := by
  induction k generalizing t with
  | zero => rfl
  | succ k ih =>
    unfold flipBranch at h ⊢
    split
    · next he =>
      rw [he] at h
      have := flipRoot_false (T := T) (perm := perm) (gt := gt) (t := t) (by rw [he]; exact h)
      rw [he] at this
      exact this
    · next he =>
      rw [he] at h
      simp only [Bool.or_eq_false_iff] at h
      have := flipRoot_false (T := T) (perm := perm) (gt := gt) (t := t) (by rw [he]; exact h.1.1)
      rw [he] at this
      rw [ih h.1.2, ih h.2]
      exact this

/-- The bound on the depth does not matter once it is the size of the tree. -/
theorem flipBranch_fuel {k : Nat} {t : PTree} (h : t.size ≤ k) : flipBranch T perm gt k t = flipBranch T perm gt t.size t := by
  induction hs : t.size using Nat.strong_induction_on generalizing t k with
  | _ m ih =>
    have hk := (flipRoot_kin (T := T) (perm := perm) (gt := gt) t).size
    cases m with
    | zero => cases t <;> simp only [size] at hs <;> omega
    | succ m =>
      cases k with
      | zero => omega
      | succ k =>
        unfold flipBranch
        split
        · rfl
        · next new n s a b f he =>
          rw [he] at hk
          simp only [size] at hk
          rw [ih a.size (by omega) (t := a) (k := k) (by omega) rfl, ih b.size (by omega) (t := b) (k := k) (by omega) rfl,
            ih a.size (by omega) (t := a) (k := m) (by omega) rfl, ih b.size (by omega) (t := b) (k := m) (by omega) rfl]

/-! ## Theorems -/

/-- The trees below a tree, itself included. -/
def parts : PTree → List PTree
  | leaf n s => [leaf n s]
  | node new n s a b => node new n s a b :: (a.parts ++ b.parts)

/-- **C72.** `flip_branch` (with recursion as deep as it needs) keeps the indices of every intermediate result right: if every result has
exactly those indices of its tensors that occur outside of it, that is so afterwards. -/
theorem c72_exact (hperm : ∀ l, (perm l).Perm l) {t : PTree} {ext : Nm → Prop} (h : t.Exact ext) :
    (flipBranch T perm gt t.size t).1.Exact ext :=
  flipBranch_exact hperm _ h

/-- **C72.** Contracting along the flipped tree gives the same tensor, with the same indices. -/
theorem c72_value {R : Type} [CommSemiring R] (hperm : ∀ l, (perm l).Perm l) {t : PTree} {ext : Nm → Prop} (h : t.Exact ext)
    (dom : Nm → Finset Nat) (tens : Nm → List Nat → R) :
    (flipBranch T perm gt t.size t).1.subs = t.subs ∧
      ∀ idx, (flipBranch T perm gt t.size t).1.run dom tens idx = t.run dom tens idx := by
  have hk := flipBranch_kin (T := T) (perm := perm) (gt := gt) t.size t
  have he := flipBranch_exact (T := T) (gt := gt) hperm t.size h
  refine ⟨hk.subs, fun idx => ?_⟩
  cases ht : (flipBranch T perm gt t.size t).1 with
  | leaf n s => rw [(hk.node n s).1 ht]
  | node new n s a b =>
    rw [← ht, run_eq he _ _ _ _ _ ht, hk.subs, einsum_perm (hk.facts tens)]
    cases ht' : t with
    | leaf n' s' => rw [ht'] at ht hk; have := (hk.node n' s').2 rfl; rw [ht] at this; cases this
    | node new' n' s' a' b' => rw [← ht', run_eq h _ _ _ _ _ ht']

/-- **C72.** The order of the flipped tree is a valid pairwise contraction order of the same tensors to the same result. -/
theorem c72_order {ns : List Nm} {t : PTree} (hl : t.lv = (ns : Multiset Nm)) (hn : t.nms.Nodup) :
    ValidOrder ns (flipBranch T perm gt t.size t).1.fullOrder t.name ∧ Pairwise2 (flipBranch T perm gt t.size t).1.fullOrder ∧
      SingleAssignment ns (flipBranch T perm gt t.size t).1.fullOrder := by
  have hk := flipBranch_kin (T := T) (perm := perm) (gt := gt) t.size t
  have := order_valid (hk.same.lv.trans hl) (by rw [hk.same.nms]; exact hn)
  rw [hk.same.name] at this
  exact this

/-- The multiplications of the last step of a tree: one for each value of the indices of the two tensors. -/
def opsOf : PTree → Nat
  | leaf _ _ => 1
  | node _ _ _ a b => 2 ^ (a.subs.toFinset ∪ b.subs.toFinset).card

/-- The entries of the result of a tree (a leaf counts as 1). -/
def sizeOf' : PTree → Nat
  | leaf _ _ => 1
  | node _ _ s _ _ => 2 ^ s.length

/-- **C72.** `total_cost` counts the multiplications of all steps (and 1 for each tensor), and the entries of the largest
intermediate result. -/
theorem c72_cost (t : PTree) : t.totalCost.s = (t.parts.map opsOf).sum ∧ (∀ u ∈ t.parts, sizeOf' u ≤ t.totalCost.t) ∧
    ∃ u ∈ t.parts, t.totalCost.t = sizeOf' u := by
  induction t with
  | leaf n s => exact ⟨rfl, by simp [parts, sizeOf', totalCost, stepCost], by simp [parts, sizeOf', totalCost, stepCost]⟩
  | node new n s a b iha ihb =>
    obtain ⟨a1, a2, ua, a3, a4⟩ := iha
    obtain ⟨b1, b2, ub, b3, b4⟩ := ihb
    have ht : (node new n s a b).totalCost.t = max (max (2 ^ s.length) a.totalCost.t) b.totalCost.t := by
      simp [totalCost, stepCost, Cost.iadd]
    refine ⟨?_, ?_, ?_⟩
    · have hd : (a.subs ++ b.subs).dedup.length = (a.subs.toFinset ∪ b.subs.toFinset).card := by
        rw [← List.toFinset_append, List.card_toFinset]
      simp only [totalCost, stepCost, Cost.iadd, parts, List.map_cons, List.map_append, List.sum_cons, List.sum_append, opsOf, a1, b1, hd]
      omega
    · intro u hu
      rw [ht]
      simp only [parts, List.mem_cons, List.mem_append] at hu
      rcases hu with rfl | hu | hu
      · exact (le_max_left _ _).trans (le_max_left _ _)
      · exact (a2 u hu).trans ((le_max_right _ _).trans (le_max_left _ _))
      · exact (b2 u hu).trans (le_max_right _ _)
    · rw [ht]
      rcases max_choice (max (2 ^ s.length) a.totalCost.t) b.totalCost.t with h | h
      · rw [h]
        rcases max_choice (2 ^ s.length) a.totalCost.t with h | h
        · exact ⟨node new n s a b, by simp [parts], by rw [h]; rfl⟩
        · exact ⟨ua, by simp [parts, a3], by rw [h, a4]⟩
      · exact ⟨ub, by simp [parts, b3], by rw [h, b4]⟩

/-- **C72.** The largest intermediate result does not grow. -/
theorem c72_memory (t : PTree) : (flipBranch T perm gt t.size t).1.totalCost.t ≤ t.totalCost.t :=
  (flipBranch_kin _ _).mem

theorem below_false {k : Nat} {t : PTree} (hk : t.size ≤ k) (h : (flipBranch T perm gt k t).2 = false) :
    ∀ u ∈ t.parts, (flipRoot T perm gt u).2 = false := by
  induction k generalizing t with
  | zero => cases t <;> simp only [size] at hk <;> omega
  | succ k ih =>
    unfold flipBranch at h
    have hr : (flipRoot T perm gt t).2 = false := by
      split at h
      · next he => rw [he]; exact h
      · next he => rw [he]; simp only [Bool.or_eq_false_iff] at h; exact h.1.1
    have hs := flipRoot_false hr
    cases t with
    | leaf n s => intro u hu; simp only [parts, List.mem_singleton] at hu; rw [hu]; exact hr
    | node new n s a b =>
      have he : flipRoot T perm gt (node new n s a b) = (node new n s a b, false) := Prod.ext hs hr
      rw [he] at h
      simp only [Bool.or_eq_false_iff] at h
      simp only [size] at hk
      intro u hu
      simp only [parts, List.mem_cons, List.mem_append] at hu
      rcases hu with hu | hu | hu
      · rw [hu]; exact hr
      · exact ih (by omega) h.1.2 u hu
      · exact ih (by omega) h.2 u hu

/-- **C72.** If `flip_branch` returns `False`, it has changed nothing, and nowhere in the tree, at a result with at least `T` indices, would
exchanging the two branches make the result between them smaller. -/
theorem c72_stable (hperm : ∀ l, (perm l).Perm l) {t : PTree} (h : (flipBranch T perm gt t.size t).2 = false) :
    (flipBranch T perm gt t.size t).1 = t ∧
      ∀ new n s b1 new1 n1 s1 b0 s0, node new n s b1 (node new1 n1 s1 b0 s0) ∈ t.parts → T ≤ s.length →
        ∀ l : List Nm, (∀ e, (e ∈ s0.subs ∨ e ∈ b1.subs) ∧ (e ∈ s ∨ e ∈ b0.subs) → e ∈ l) → s1.length ≤ l.length := by
  refine ⟨flipBranch_false h, fun new n s b1 new1 n1 s1 b0 s0 hu hT l hl => ?_⟩
  have := below_false le_rfl h _ hu
  simp only [flipRoot] at this
  split at this
  · cases this
  · next hc =>
    have h1 : s1.length ≤ (imagSubs perm s0.subs b1.subs s b0.subs).length := by
      by_contra hlt
      exact hc ⟨hT, Or.inl (by omega)⟩
    refine h1.trans ?_
    rw [imagSubs, (hperm _).length_eq]
    refine (List.nodup_dedup _).length_le_of_subset ?_ |>.trans le_rfl
    intro e he
    have := mem_setMeet.1 (show e ∈ setMeet (s0.subs ++ b1.subs) (s ++ b0.subs) from he)
    rw [List.mem_append, List.mem_append] at this
    exact hl e this

/-- **C72.** At the root, the exchange happens exactly when the result has at least `T` indices and the result between the two branches gets
smaller, or stays as large and the strings of the branches are out of order. -/
theorem c72_when (hperm : ∀ l, (perm l).Perm l) {new : Bool} {n : Nm} {s : List Nm} {b1 : PTree} {new1 : Bool} {n1 : Nm} {s1 : List Nm}
    {b0 s0 : PTree} {l : List Nm} (hl : l.Nodup) (hm : ∀ e, e ∈ l ↔ (e ∈ s0.subs ∨ e ∈ b1.subs) ∧ (e ∈ s ∨ e ∈ b0.subs)) :
    (flipRoot T perm gt (node new n s b1 (node new1 n1 s1 b0 s0))).2 = true ↔
      T ≤ s.length ∧ (l.length < s1.length ∨ l.length = s1.length ∧ gt b0.subs b1.subs = true) := by
  have hlen : (imagSubs perm s0.subs b1.subs s b0.subs).length = l.length := by
    rw [imagSubs, (hperm _).length_eq]
    refine List.Perm.length_eq ((List.perm_ext_iff_of_nodup (List.nodup_dedup _) hl).2 fun e => ?_)
    rw [hm]
    refine (mem_setMeet (a := s0.subs ++ b1.subs) (b := s ++ b0.subs)).trans ?_
    rw [List.mem_append, List.mem_append]
  simp only [flipRoot, hlen]
  split
  · next h => exact ⟨fun _ => h, fun _ => rfl⟩
  · next h => exact ⟨(fun h' => by cases h'), fun h' => (h h').elim⟩

/-! ## A concrete case -/

/-- The 22 open indices of `flipCase`. -/
def flipOpen : List Nm := (List.range 22).map fun i => Nm.int (100 + (i : Nat))

/-- `q` of the three indices that can join the second tensor to the third. -/
def flipInner (q : Nat) : List Nm := [.int 10, .int 11, .int 12].take q

/-- Three tensors, the third with the indices `flipOpen`. -/
def flipCase (q : Nat) : PTree :=
  node false (.str "#") (.int 1 :: flipOpen) (leaf (.int 1) (.int 1 :: flipInner q))
    (node false (.str "m") (flipInner q ++ flipOpen) (leaf (.int 0) [.int 0]) (leaf (.int 2) (.int 0 :: flipInner q ++ flipOpen)))

theorem flipCase_exact : (flipCase 3).Exact fun e => e = .int 1 ∨ e ∈ flipOpen := by
  have h0 : Nm.int 0 ∉ flipOpen := by decide +kernel
  have h1 : Nm.int 1 ∉ flipInner 3 ∧ Nm.int 0 ∉ flipInner 3 := by decide +kernel
  have h2 : ∀ e ∈ flipInner 3, e ∉ flipOpen := by decide +kernel
  refine ⟨fun e => ?_, trivial, fun e => ?_, trivial, trivial⟩
  · simp only [inds, List.mem_cons, List.mem_append, List.not_mem_nil]
    tauto
  · simp only [inds, List.mem_cons, List.mem_append, List.not_mem_nil]
    constructor
    · tauto
    · rintro ⟨h, h'⟩
      have h3 : e = .int 1 → e ∉ flipInner 3 ∧ e ∉ flipOpen ∧ e ≠ .int 0 := by
        rintro rfl
        exact ⟨h1.1, by decide +kernel, by decide⟩
      have h4 : e = .int 0 → e ∉ flipInner 3 ∧ e ∉ flipOpen := by
        rintro rfl
        exact ⟨h1.2, h0⟩
      tauto

/-- A flip that happens, of a tree with exact indices and distinct names. -/
example : (flipCase 3).Exact (fun e => e = .int 1 ∨ e ∈ flipOpen) ∧
    (flipCase 3).lv = (([.int 1, .int 0, .int 2] : List Nm) : Multiset Nm) ∧ (flipCase 3).nms.Nodup ∧
    (flipBranch 23 id (fun _ _ => false) (flipCase 3).size (flipCase 3)).2 = true :=
  ⟨flipCase_exact, by decide +kernel, by decide +kernel, by decide +kernel⟩

/-- The cost of that tree, as `c72_cost` counts it. -/
example : ((flipCase 3).parts.map opsOf).sum = 32 * 2 ^ 22 + 3 := by decide +kernel

/-- A tree at which nothing happens. -/
example : (flipBranch 23 id (fun _ _ => false) (flipCase 1).size (flipCase 1)).2 = false := by decide +kernel

/-- **C72, violated for the number of operations.** A flip can make the total cost larger: from `32 * 2 ^ 22 + 3` to `36 * 2 ^ 22 + 3`. -/
theorem c72_flops_violated : ∃ (t : PTree) (ext : Nm → Prop), t.Exact ext ∧ t.nms.Nodup ∧
    t.totalCost.s < (flipBranch 23 id (fun _ _ => false) t.size t).1.totalCost.s :=
  ⟨flipCase 3, _, flipCase_exact, by decide +kernel, by decide +kernel⟩

end PTree

end Verif
