import Verif.Spec.Evolve
import Verif.Props.Gates
import Mathlib.Data.ZMod.Basic
import Mathlib.Tactic.Ring
/-!
# Stabilizer measurements on amplitudes

States of qubits as functions of assignments `Int → ZMod 2`; Hadamard, CZ and CNOT gates on them; conjugation by Hadamard gates.
-/

namespace Verif

namespace Qec

open Function

/-- The amplitudes of a state of qubits. -/
abbrev Amp := (Int → ZMod 2) → ℂ

/-- `(-1)^x`. -/
def sgn (x : ZMod 2) : ℂ := if x = 0 then 1 else -1

theorem zmod2 (x : ZMod 2) : x = 0 ∨ x = 1 := by revert x; decide

theorem sgn_add (x y : ZMod 2) : sgn (x + y) = sgn x * sgn y := by
  have h : (1 : ZMod 2) + 1 = 0 := by decide
  rcases zmod2 x with rfl | rfl <;> rcases zmod2 y with rfl | rfl <;> simp [sgn, h]

/-- The Hadamard gate on qubit `a`. -/
noncomputable def hop (a : Int) (Φ : Amp) : Amp := fun z => (Real.sqrt 0.5 : ℂ) * (Φ (update z a 0) + sgn (z a) * Φ (update z a 1))

/-- The CZ gate. -/
noncomputable def czop (e : Int × Int) (Φ : Amp) : Amp := fun z => sgn (z e.1 * z e.2) * Φ z

/-- The CNOT gate with target `e.1`. -/
def cnop (e : Int × Int) (Φ : Amp) : Amp := fun z => Φ (update z e.1 (z e.1 + z e.2))

noncomputable def hs (l : List Int) (Φ : Amp) : Amp := l.foldl (fun Φ a => hop a Φ) Φ

noncomputable def czs (l : List (Int × Int)) (Φ : Amp) : Amp := l.foldl (fun Φ e => czop e Φ) Φ

def cnots (l : List (Int × Int)) (Φ : Amp) : Amp := l.foldl (fun Φ e => cnop e Φ) Φ

theorem hop_comm (a b : Int) (Φ : Amp) : hop a (hop b Φ) = hop b (hop a Φ) := by
  by_cases h : a = b
  · rw [h]
  · funext z
    unfold hop
    simp only [update_of_ne h, update_of_ne (Ne.symm h)]
    rw [update_comm h, update_comm h, update_comm h, update_comm h]
    ring

theorem hop_hop (a : Int) (Φ : Amp) : hop a (hop a Φ) = Φ := by
  funext z
  have e := Gate.half_sqrt
  unfold hop
  simp only [update_idem, update_self]
  rcases zmod2 (z a) with h | h
  · have : update z a 0 = z := by rw [← h, update_eq_self]
    rw [h, this]
    simp only [sgn, if_pos, one_ne_zero, if_false]
    linear_combination 2 * Φ z * e
  · have : update z a 1 = z := by rw [← h, update_eq_self]
    rw [h, this]
    simp only [sgn, if_pos, one_ne_zero, if_false]
    linear_combination 2 * Φ z * e

theorem hs_cons (a : Int) (l : List Int) (Φ : Amp) : hs (a :: l) Φ = hs l (hop a Φ) := rfl

theorem hop_hs (a : Int) (l : List Int) : ∀ Φ, hop a (hs l Φ) = hs l (hop a Φ) := by
  induction l with
  | nil => intro Φ; rfl
  | cons b l ih => intro Φ; rw [hs_cons, hs_cons, ih, hop_comm]

theorem hs_hs (l : List Int) : ∀ Φ, hs l (hs l Φ) = Φ := by
  induction l with
  | nil => intro Φ; rfl
  | cons a l ih => intro Φ; rw [hs_cons, hs_cons, hop_hs, hop_hop, ih]

theorem hs_append (l l' : List Int) (Φ : Amp) : hs (l ++ l') Φ = hs l' (hs l Φ) := List.foldl_append

theorem hs_comm (l l' : List Int) : ∀ Φ, hs l (hs l' Φ) = hs l' (hs l Φ) := by
  induction l with
  | nil => intro Φ; rfl
  | cons a l ih => intro Φ; rw [hs_cons, hs_cons, hop_hs, ih]

theorem hop_czop {c : Int} {e : Int × Int} (h1 : c ≠ e.1) (h2 : c ≠ e.2) (Φ : Amp) : hop c (czop e Φ) = czop e (hop c Φ) := by
  funext z
  unfold hop czop
  simp only [update_of_ne h1.symm, update_of_ne h2.symm]
  ring

theorem hs_czop {l : List Int} {e : Int × Int} (h1 : e.1 ∉ l) (h2 : e.2 ∉ l) : ∀ Φ, hs l (czop e Φ) = czop e (hs l Φ) := by
  induction l with
  | nil => intro Φ; rfl
  | cons a l ih =>
    intro Φ
    rw [List.mem_cons, not_or] at h1 h2
    rw [hs_cons, hs_cons, hop_czop (Ne.symm h1.1) (Ne.symm h2.1), ih h1.2 h2.2]

theorem hop_cz_hop {e : Int × Int} (h : e.1 ≠ e.2) (Φ : Amp) : hop e.1 (czop e (hop e.1 Φ)) = cnop e Φ := by
  funext z
  have r := Gate.half_sqrt
  have e11 : (1 : ZMod 2) + 1 = 0 := by decide
  unfold hop czop cnop
  simp only [update_idem, update_self, update_of_ne h.symm, zero_mul, one_mul]
  rcases zmod2 (z e.1) with h1 | h1 <;> rcases zmod2 (z e.2) with h2 | h2 <;> rw [h1, h2] <;>
    simp only [sgn, if_pos, one_ne_zero, if_false, add_zero, zero_add, e11]
  · linear_combination 2 * Φ (update z e.1 0) * r
  · linear_combination 2 * Φ (update z e.1 1) * r
  · linear_combination 2 * Φ (update z e.1 1) * r
  · linear_combination 2 * Φ (update z e.1 0) * r

theorem hs_cz_hs {l : List Int} {e : Int × Int} (hl : l.Nodup) (h1 : e.1 ∈ l) (h2 : e.2 ∉ l) :
    ∀ Φ, hs l (czop e (hs l Φ)) = cnop e Φ := by
  have hne : e.1 ≠ e.2 := fun h => h2 (h ▸ h1)
  induction l with
  | nil => simp at h1
  | cons a l ih =>
    intro Φ
    rw [List.nodup_cons] at hl
    rw [List.mem_cons, not_or] at h2
    rw [hs_cons, hs_cons]
    by_cases ha : e.1 = a
    · rw [← hs_czop (by rw [ha]; exact hl.1) h2.2, hop_hs, hs_hs, ← ha, hop_cz_hop hne]
    · have h1' : e.1 ∈ l := by
        rcases List.mem_cons.1 h1 with h | h
        · exact absurd h ha
        · exact h
      rw [hop_czop (Ne.symm ha) (Ne.symm h2.1), hop_hs, hop_hop, ih hl.2 h1' h2.2]

/-- Conjugation by Hadamard gates on the ancillas turns the CZ gates into CNOT gates. -/
theorem hs_czs_hs {l : List Int} (hl : l.Nodup) {E : List (Int × Int)} : (∀ e ∈ E, e.1 ∈ l ∧ e.2 ∉ l) →
    ∀ Φ, hs l (czs E (hs l Φ)) = cnots E Φ := by
  induction E with
  | nil => intro _ Φ; exact hs_hs l Φ
  | cons e E ih =>
    intro h Φ
    have he := h e List.mem_cons_self
    show hs l (czs E (czop e (hs l Φ))) = cnots E (cnop e Φ)
    rw [← hs_hs l (czop e (hs l Φ)), hs_cz_hs hl he.1 he.2, ih fun e he => h e (List.mem_cons_of_mem _ he)]

/-- The partners of `a`. -/
def nb (E : List (Int × Int)) (a : Int) : List Int := (E.filter fun e => e.1 = a).map Prod.snd

theorem cnots_eq {E : List (Int × Int)} : (∀ e ∈ E, ∀ e' ∈ E, e.2 ≠ e'.1) → ∀ Φ z,
    cnots E Φ z = Φ fun q => z q + ((nb E q).map z).sum := by
  induction E with
  | nil => intro _ Φ z; simp [cnots, nb]
  | cons e E ih =>
    intro h Φ z
    show cnots E (cnop e Φ) z = _
    rw [ih fun a ha b hb => h a (List.mem_cons_of_mem _ ha) b (List.mem_cons_of_mem _ hb)]
    unfold cnop
    congr 1
    have h0 : nb E e.2 = [] := by
      unfold nb
      rw [List.map_eq_nil_iff, List.filter_eq_nil_iff]
      intro e' he'
      simpa using fun h' => h e List.mem_cons_self e' (List.mem_cons_of_mem _ he') h'.symm
    funext q
    by_cases hq : q = e.1
    · subst hq
      rw [update_self]
      beta_reduce
      rw [h0]
      simp only [nb, List.filter_cons, decide_true, if_true, List.map_cons, List.sum_cons, List.map_nil, List.sum_nil, add_zero]
      ring
    · rw [update_of_ne hq]
      have : nb (e :: E) q = nb E q := by
        unfold nb
        rw [List.filter_cons_of_neg (by simpa using Ne.symm hq)]
      rw [this]

/-- A qubit is measured with result `s` and prepared in state 0. -/
noncomputable def reset (s : Int → ZMod 2) (a : Int) (Φ : Amp) : Amp := fun z => if z a = 0 then Φ (update z a (s a)) else 0

noncomputable def resets (s : Int → ZMod 2) (l : List Int) (Φ : Amp) : Amp := l.foldl (fun Φ a => reset s a Φ) Φ

theorem resets_eq (s : Int → ZMod 2) {l : List Int} (hl : l.Nodup) : ∀ Φ z,
    resets s l Φ z = if ∀ a ∈ l, z a = 0 then Φ (fun q => if q ∈ l then s q else z q) else 0 := by
  induction l with
  | nil => intro Φ z; simp [resets]
  | cons a l ih =>
    intro Φ z
    rw [List.nodup_cons] at hl
    show resets s l (reset s a Φ) z = _
    rw [ih hl.2]
    unfold reset
    simp only [List.mem_cons, forall_eq_or_imp, if_neg hl.1]
    by_cases h1 : ∀ x ∈ l, z x = 0
    · by_cases h2 : z a = 0
      · rw [if_pos h1, if_pos h2, if_pos ⟨h2, h1⟩]
        congr 1
        funext q
        by_cases hq : q = a
        · subst hq; simp
        · simp [hq]
      · rw [if_pos h1, if_neg h2, if_neg (fun h => h2 h.1)]
    · rw [if_neg h1, if_neg (fun h => h1 h.2)]

/-- The state with the qubits of `l` projected on 0. -/
noncomputable def zeroed (l : List Int) (Φ : Amp) : Amp := fun z => if ∀ a ∈ l, z a = 0 then Φ z else 0

/-- The projector on the states where the product of the Z operators of `N` is `(-1)^s`. -/
noncomputable def zproj (s : ZMod 2) (N : List Int) (Φ : Amp) : Amp := fun z => (Φ z + sgn (s + (N.map z).sum) * Φ z) / 2

/-- The assignment with the qubits of `N` flipped. -/
def flips (N : List Int) (z : Int → ZMod 2) : Int → ZMod 2 := fun q => z q + (N.count q : ZMod 2)

/-- The projector on the states where the product of the X operators of `N` is `(-1)^s`. -/
noncomputable def xproj (s : ZMod 2) (N : List Int) (Φ : Amp) : Amp := fun z => (Φ z + sgn s * Φ (flips N z)) / 2

theorem zproj_eq (s : ZMod 2) (N : List Int) (Φ : Amp) (z : Int → ZMod 2) :
    zproj s N Φ z = if s + (N.map z).sum = 0 then Φ z else 0 := by
  unfold zproj sgn
  split <;> ring

theorem zprojs_eq {β : Type} (s : β → ZMod 2) (N : β → List Int) (l : List β) : ∀ Φ z,
    l.foldl (fun Φ a => zproj (s a) (N a) Φ) Φ z = if ∀ a ∈ l, s a + ((N a).map z).sum = 0 then Φ z else 0 := by
  induction l with
  | nil => intro Φ z; simp
  | cons a l ih =>
    intro Φ z
    rw [List.foldl_cons, ih, zproj_eq]
    simp only [List.mem_cons, forall_eq_or_imp]
    by_cases h1 : s a + ((N a).map z).sum = 0 <;> by_cases h2 : ∀ x ∈ l, s x + ((N x).map z).sum = 0 <;> simp [h1, h2]

theorem mem_nb {E : List (Int × Int)} {a d : Int} (h : d ∈ nb E a) : (a, d) ∈ E := by
  unfold nb at h
  rw [List.mem_map] at h
  obtain ⟨e, he, rfl⟩ := h
  rw [List.mem_filter, decide_eq_true_eq] at he
  obtain ⟨h1, rfl⟩ := he
  exact h1

theorem zeroed_cnots {anc : List Int} {E : List (Int × Int)} (hE : ∀ e ∈ E, e.1 ∈ anc ∧ e.2 ∉ anc) (s : Int → ZMod 2) (Φ : Amp) (z : Int → ZMod 2)
    : cnots E (zeroed anc Φ) (fun q => if q ∈ anc then s q else z q) =
      anc.foldl (fun Φ a => zproj (s a) (nb E a) Φ) Φ (fun q => if q ∈ anc then 0 else z q) := by
  have hsum : ∀ a (t : Int → ZMod 2), ((nb E a).map fun q => if q ∈ anc then t q else z q).sum = ((nb E a).map z).sum := by
    intro a t
    congr 1
    refine List.map_congr_left fun d hd => ?_
    rw [if_neg (hE _ (mem_nb hd)).2]
  rw [cnots_eq fun e he e' he' h => (hE e he).2 (h ▸ (hE e' he').1), zprojs_eq]
  unfold zeroed
  simp only [hsum]
  have hq : ∀ q, q ∉ anc → nb E q = [] := by
    intro q hq
    by_contra hne
    obtain ⟨d, hd⟩ := List.exists_mem_of_ne_nil _ hne
    exact hq (hE _ (mem_nb hd)).1
  have hiff : (∀ a ∈ anc, (if a ∈ anc then s a else z a) + ((nb E a).map z).sum = 0) ↔ ∀ a ∈ anc, s a + ((nb E a).map z).sum = 0 :=
    forall₂_congr fun a ha => by rw [if_pos ha]
  rw [if_congr hiff rfl rfl]
  by_cases h : ∀ a ∈ anc, s a + ((nb E a).map z).sum = 0
  · rw [if_pos h, if_pos h]
    congr 1
    funext q
    by_cases hqa : q ∈ anc
    · rw [if_pos hqa, if_pos hqa]; exact h q hqa
    · rw [if_neg hqa, if_neg hqa, hq q hqa]; simp
  · rw [if_neg h, if_neg h]

/-- The measurement of Z stabilizers. -/
theorem stab_z {anc : List Int} (ha : anc.Nodup) {E : List (Int × Int)} (hE : ∀ e ∈ E, e.1 ∈ anc ∧ e.2 ∉ anc) (s : Int → ZMod 2) (Φ : Amp) :
    resets s anc (hs anc (czs E (hs anc (zeroed anc Φ)))) = zeroed anc (anc.foldl (fun Φ a => zproj (s a) (nb E a) Φ) Φ) := by
  funext z
  rw [hs_czs_hs ha hE, resets_eq s ha, zeroed_cnots hE]
  unfold zeroed
  by_cases h : ∀ a ∈ anc, z a = 0
  · rw [if_pos h, if_pos h]
    refine congrArg _ (funext fun q => ?_)
    by_cases hq : q ∈ anc
    · rw [if_pos hq, h q hq]
    · rw [if_neg hq]
  · rw [if_neg h, if_neg h]

/-! ## X stabilizers -/

theorem hop_flip (d : Int) (Φ : Amp) : hop d (fun z => sgn (z d) * Φ z) = fun z => hop d Φ (update z d (z d + 1)) := by
  have e11 : (1 : ZMod 2) + 1 = 0 := by decide
  funext z
  unfold hop
  simp only [update_idem, update_self, sgn_add]
  simp only [sgn, if_pos, one_ne_zero, if_false]
  ring

theorem hop_phase {c d : Int} (h : c ≠ d) (Φ : Amp) : hop c (fun z => sgn (z d) * Φ z) = fun z => sgn (z d) * hop c Φ z := by
  funext z
  unfold hop
  simp only [update_of_ne h.symm]
  ring

theorem hop_flip_ne {c d : Int} (h : c ≠ d) (Φ : Amp) : hop c (fun z => Φ (update z d (z d + 1))) = fun z => hop c Φ (update z d (z d + 1)) := by
  funext z
  unfold hop
  simp only [update_of_ne h.symm, update_of_ne h]
  rw [update_comm h, update_comm h]

theorem hs_flip_ne {l : List Int} {d : Int} (h : d ∉ l) : ∀ Φ, hs l (fun z => Φ (update z d (z d + 1))) = fun z => hs l Φ (update z d (z d + 1)) := by
  induction l with
  | nil => intro Φ; rfl
  | cons a l ih =>
    intro Φ
    rw [List.mem_cons, not_or] at h
    rw [hs_cons, hs_cons, hop_flip_ne (Ne.symm h.1), ih h.2]

theorem hs_phase_ne {l : List Int} {d : Int} (h : d ∉ l) : ∀ Φ, hs l (fun z => sgn (z d) * Φ z) = fun z => sgn (z d) * hs l Φ z := by
  induction l with
  | nil => intro Φ; rfl
  | cons a l ih =>
    intro Φ
    rw [List.mem_cons, not_or] at h
    rw [hs_cons, hs_cons, hop_phase (Ne.symm h.1), ih h.2]

theorem hs_flip {l : List Int} (hl : l.Nodup) {d : Int} (h : d ∈ l) : ∀ Φ, hs l (fun z => sgn (z d) * Φ z) = fun z => hs l Φ (update z d (z d + 1)) := by
  induction l with
  | nil => simp at h
  | cons a l ih =>
    intro Φ
    rw [List.nodup_cons] at hl
    rw [hs_cons, hs_cons]
    by_cases ha : d = a
    · subst ha
      rw [hop_flip, hs_flip_ne hl.1]
    · have h' : d ∈ l := by
        rcases List.mem_cons.1 h with h | h
        · exact absurd h ha
        · exact h
      rw [hop_phase (Ne.symm ha), ih hl.2 h']

theorem hs_flips {l : List Int} (hl : l.Nodup) {N : List Int} : (∀ d ∈ N, d ∈ l) → ∀ Φ,
    hs l (fun z => sgn (N.map z).sum * Φ z) = fun z => hs l Φ (flips N z) := by
  induction N with
  | nil =>
    intro _ Φ
    have : ∀ z, flips [] z = z := fun z => by funext q; simp [flips]
    simp [sgn, this]
  | cons d N ih =>
    intro h Φ
    have e : (fun z : Int → ZMod 2 => sgn ((d :: N).map z).sum * Φ z) = fun z => sgn (z d) * (sgn (N.map z).sum * Φ z) := by
      funext z
      rw [List.map_cons, List.sum_cons, sgn_add]; ring
    rw [e, hs_flip hl (h d List.mem_cons_self) fun z => sgn (N.map z).sum * Φ z, ih fun d hd => h d (List.mem_cons_of_mem _ hd)]
    funext z
    beta_reduce
    congr 1
    funext q
    unfold flips
    by_cases hq : q = d
    · subst hq
      rw [update_self, List.count_cons_self]
      push_cast; ring
    · rw [update_of_ne hq, List.count_cons_of_ne (Ne.symm hq)]

theorem hs_lin (l : List Int) : ∀ (Φ Φ' : Amp) (c : ℂ), hs l (fun z => (Φ z + c * Φ' z) / 2) = fun z => (hs l Φ z + c * hs l Φ' z) / 2 := by
  induction l with
  | nil => intro Φ Φ' c; rfl
  | cons a l ih =>
    intro Φ Φ' c
    rw [hs_cons, hs_cons, hs_cons]
    have : hop a (fun z => (Φ z + c * Φ' z) / 2) = fun z => (hop a Φ z + c * hop a Φ' z) / 2 := by
      funext z; unfold hop; ring
    rw [this, ih]

theorem hs_zproj {l : List Int} (hl : l.Nodup) {N : List Int} (h : ∀ d ∈ N, d ∈ l) (s : ZMod 2) (Φ : Amp) :
    hs l (zproj s N Φ) = xproj s N (hs l Φ) := by
  have e : zproj s N Φ = fun z => (Φ z + sgn s * (sgn (N.map z).sum * Φ z)) / 2 := by
    funext z; unfold zproj; rw [sgn_add]; ring
  rw [e, hs_lin, hs_flips hl h]
  rfl

theorem hs_zprojs {l : List Int} (hl : l.Nodup) (s : Int → ZMod 2) (N : Int → List Int) (h : ∀ a, ∀ d ∈ N a, d ∈ l) (anc : List Int) : ∀ Φ : Amp,
    hs l (anc.foldl (fun Φ a => zproj (s a) (N a) Φ) Φ) = anc.foldl (fun Φ a => xproj (s a) (N a) Φ) (hs l Φ) := by
  induction anc with
  | nil => intro Φ; rfl
  | cons a anc ih => intro Φ; rw [List.foldl_cons, List.foldl_cons, ih, hs_zproj hl (h a)]

/-- Gates on `l` do not see what happens to other qubits. -/
theorem hs_over {l anc : List Int} (h : ∀ d ∈ l, d ∉ anc) (s : Int → ZMod 2) : ∀ (Φ : Amp) (z : Int → ZMod 2),
    hs l Φ (fun q => if q ∈ anc then s q else z q) = hs l (fun z => Φ fun q => if q ∈ anc then s q else z q) z := by
  induction l with
  | nil => intro Φ z; rfl
  | cons a l ih =>
    intro Φ z
    rw [hs_cons, hs_cons, ih fun d hd => h d (List.mem_cons_of_mem _ hd)]
    congr 1
    funext z
    have ha := h a List.mem_cons_self
    unfold hop
    beta_reduce
    rw [if_neg ha]
    have : ∀ b, update (fun q => if q ∈ anc then s q else z q) a b = fun q => if q ∈ anc then s q else update z a b q := by
      intro b
      funext q
      by_cases hq : q = a
      · subst hq; rw [update_self, if_neg ha, update_self]
      · rw [update_of_ne hq, update_of_ne hq]
    rw [this, this]

theorem hs_zeroed {l anc : List Int} (h : ∀ d ∈ l, d ∉ anc) : ∀ Φ : Amp, hs l (zeroed anc Φ) = zeroed anc (hs l Φ) := by
  induction l with
  | nil => intro Φ; rfl
  | cons a l ih =>
    intro Φ
    rw [hs_cons, hs_cons, ← ih fun d hd => h d (List.mem_cons_of_mem _ hd)]
    congr 1
    funext z
    unfold hop zeroed
    have : ∀ b, (∀ x ∈ anc, update z a b x = 0) ↔ ∀ x ∈ anc, z x = 0 := fun b => forall₂_congr fun x hx => by
      rw [update_of_ne (show x ≠ a from fun hxa => h a List.mem_cons_self (hxa ▸ hx))]
    simp only [this]
    split <;> simp

/-- The measurement of X stabilizers. -/
theorem stab_x {data anc : List Int} (hd : data.Nodup) (ha : anc.Nodup) (hda : ∀ d ∈ data, d ∉ anc) {E : List (Int × Int)}
    (hE : ∀ e ∈ E, e.1 ∈ anc ∧ e.2 ∈ data) (s : Int → ZMod 2) (Φ : Amp) :
    resets s anc (hs (data ++ anc) (czs E (hs (data ++ anc) (zeroed anc Φ)))) =
      zeroed anc (anc.foldl (fun Φ a => xproj (s a) (nb E a) Φ) Φ) := by
  have hE' : ∀ e ∈ E, e.1 ∈ anc ∧ e.2 ∉ anc := fun e he => ⟨(hE e he).1, hda _ (hE e he).2⟩
  funext z
  rw [hs_append, hs_append, hs_comm anc data (czs E _),
    hs_czs_hs ha hE', resets_eq s ha, hs_over hda, hs_zeroed hda]
  simp only [zeroed_cnots hE']
  rw [← hs_over hda fun _ => 0, hs_zprojs hd s (nb E) (fun a d hd => (hE _ (mem_nb hd)).2), hs_hs]
  unfold zeroed
  by_cases h : ∀ a ∈ anc, z a = 0
  · rw [if_pos h, if_pos h]
    refine congrArg _ (funext fun q => ?_)
    by_cases hq : q ∈ anc
    · rw [if_pos hq, h q hq]
    · rw [if_neg hq]
  · rw [if_neg h, if_neg h]

/-! ## Reordering -/

theorem zproj_perm {N N' : List Int} (h : N.Perm N') (s : ZMod 2) (Φ : Amp) : zproj s N Φ = zproj s N' Φ := by
  funext z
  unfold zproj
  rw [(h.map z).sum_eq]

theorem xproj_perm {N N' : List Int} (h : N.Perm N') (s : ZMod 2) (Φ : Amp) : xproj s N Φ = xproj s N' Φ := by
  funext z
  unfold xproj
  have : flips N z = flips N' z := by funext q; unfold flips; rw [h.count_eq]
  rw [this]

theorem czop_swap (a d : Int) (Φ : Amp) : czop (a, d) Φ = czop (d, a) Φ := by
  funext z; unfold czop; rw [mul_comm (z _)]

end Qec

end Verif
