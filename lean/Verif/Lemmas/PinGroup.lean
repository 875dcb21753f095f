import Verif.Lemmas.Slice
import Verif.Lemmas.Value
/-! # Helper lemmas: contracting a group of factors before some of its edges are pinned -/

namespace Verif

variable {E : Type} [DecidableEq E] {R : Type} [CommSemiring R]

theorem Factor.pin_at (P : List E) (σ : E → Nat) (f : Factor E R) (a : E → Nat) :
    (f.pin P σ).at a = f.at fun e => if e ∈ P then σ e else a e := by
  show f.ten (weave P σ f.legs ((f.legs.filter (· ∉ P)).map a)) = _
  rw [weave_map]
  rfl

theorem prodAt_pin (P : List E) (σ : E → Nat) (fs : List (Factor E R)) (a : E → Nat) :
    prodAt (fs.map (Factor.pin P σ)) a = prodAt fs fun e => if e ∈ P then σ e else a e := by
  induction fs with
  | nil => rfl
  | cons f fs ih => rw [List.map_cons, prodAt_cons, prodAt_cons, ih, Factor.pin_at]

theorem sumOver_pinned_base {dom : E → Finset Nat} {P l : List E} {σ : E → Nat} (h : ∀ e ∈ l, e ∉ P)
    (f : (E → Nat) → R) (a : E → Nat) :
    sumOver dom l (fun b => f fun e => if e ∈ P then σ e else b e) a =
      sumOver dom l f fun e => if e ∈ P then σ e else a e := by
  induction l generalizing a with
  | nil => rfl
  | cons e l ih =>
    rw [sumOver_cons, sumOver_cons]
    refine Finset.sum_congr rfl fun x _ => ?_
    rw [ih fun e' he' => h e' (by simp [he'])]
    congr 1
    funext e'
    by_cases he : e' = e
    · subst he
      simp [h e' (by simp)]
    · simp [Function.update_of_ne he]

/-- A group of factors may be contracted before edges in `P` are pinned, if its result keeps those edges. -/
theorem einsum_pin_group {dom : E → Finset Nat} {S rest : List (Factor E R)} {L opn P : List E} {σ : E → Nat}
    (hσ : ∀ e ∈ P, σ e ∈ dom e) (hsub : ∀ e ∈ L, ∃ f ∈ S, e ∈ f.legs)
    (hneed : ∀ e, (∃ f ∈ S, e ∈ f.legs) → ((∃ f ∈ rest, e ∈ f.legs) ∨ e ∈ opn ∨ e ∈ P) → e ∈ L) (idx : List Nat) :
    einsum dom (Factor.pin P σ ⟨L, einsum dom S L⟩ :: rest.map (Factor.pin P σ)) opn idx =
      einsum dom ((S ++ rest).map (Factor.pin P σ)) opn idx := by
  classical
  have hpin : ∀ (fs : List (Factor E R)) e, (∃ f ∈ fs.map (Factor.pin P σ), e ∈ f.legs) ↔ (∃ f ∈ fs, e ∈ f.legs) ∧ e ∉ P := by
    intro fs e
    constructor
    · rintro ⟨f, hf, he⟩
      obtain ⟨g, hg, rfl⟩ := List.mem_map.1 hf
      obtain ⟨h1, h2⟩ := List.mem_filter.1 (show e ∈ g.legs.filter _ from he)
      exact ⟨⟨g, hg, h1⟩, by simpa using h2⟩
    · rintro ⟨⟨g, hg, he⟩, hp⟩
      exact ⟨_, List.mem_map.2 ⟨g, hg, rfl⟩, List.mem_filter.2 ⟨he, by simpa using hp⟩⟩
  let inner : List E := ((S.flatMap Factor.legs).dedup).filter (fun e => e ∉ L)
  have hn : inner.Nodup := (List.nodup_dedup _).filter _
  have hi : ∀ e, e ∈ inner ↔ (∃ f ∈ S, e ∈ f.legs) ∧ e ∉ L := by
    intro e; simp [inner, List.mem_filter, List.mem_flatMap]
  rw [List.map_append, ← einsum_contract_group (S := S.map (Factor.pin P σ)) (L := L.filter (· ∉ P))]
  · refine einsum_factors_congr (.cons ⟨rfl, fun a ha => ?_⟩ (List.forall₂_same.2 fun f _ => ⟨rfl, fun _ _ => rfl⟩))
    show einsum dom S L (weave P σ L ((L.filter (· ∉ P)).map a)) =
      einsum dom (S.map (Factor.pin P σ)) (L.filter (· ∉ P)) ((L.filter (· ∉ P)).map a)
    have ha' : ∀ e ∈ L.filter (· ∉ P), a e ∈ dom e := ha
    rw [weave_map, einsum_at (inner := inner) (fun e he => ?_) hn hi, einsum_at (inner := inner) ha' hn]
    · rw [show prodAt (S.map (Factor.pin P σ)) = fun b => prodAt S fun e => if e ∈ P then σ e else b e from
        funext fun b => prodAt_pin P σ S b]
      refine (sumOver_pinned_base (fun e he hp => ?_) _ _).symm
      obtain ⟨h1, h2⟩ := (hi e).1 he
      exact h2 (hneed e h1 (Or.inr (Or.inr hp)))
    · intro e
      rw [hi, hpin, List.mem_filter]
      simp only [decide_eq_true_eq, not_and, not_not]
      constructor
      · rintro ⟨h1, h2⟩
        exact ⟨⟨h1, fun hp => h2 (hneed e h1 (Or.inr (Or.inr hp)))⟩, fun h => absurd h h2⟩
      · rintro ⟨⟨h1, h2⟩, h3⟩
        exact ⟨h1, fun h => h2 (h3 h)⟩
    · by_cases hp : e ∈ P
      · rw [if_pos hp]; exact hσ e hp
      · rw [if_neg hp]; exact ha' e (List.mem_filter.2 ⟨he, by simpa using hp⟩)
  · intro e he
    obtain ⟨h1, h2⟩ := List.mem_filter.1 he
    exact (hpin S e).2 ⟨hsub e h1, by simpa using h2⟩
  · intro e h1 h2
    obtain ⟨h3, h4⟩ := (hpin S e).1 h1
    refine List.mem_filter.2 ⟨hneed e h3 ?_, by simpa using h4⟩
    rcases h2 with h2 | h2
    · exact Or.inl ((hpin rest e).1 h2).1
    · exact Or.inr (Or.inl h2)

end Verif
