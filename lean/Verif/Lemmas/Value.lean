import Verif.Lemmas.Einsum
import Verif.Lemmas.Subtn
import Verif.Spec.Value
import Verif.Spec.Shape
/-! # Helper lemmas on the value of a network -/

namespace Verif

variable {R : Type} [CommSemiring R]

section
variable {E : Type} [DecidableEq E]

/-- Factors may be replaced by factors with the same legs and the same entries inside the domains. -/
theorem einsum_factors_congr {dom : E → Finset Nat} {fs gs : List (Factor E R)} {opn : List E} {idx : List Nat}
    (h : List.Forall₂ (fun f g : Factor E R => f.legs = g.legs ∧
      ∀ a : E → Nat, (∀ e ∈ f.legs, a e ∈ dom e) → f.ten (f.legs.map a) = g.ten (f.legs.map a)) fs gs) :
    einsum dom fs opn idx = einsum dom gs opn idx := by
  have hlegs : fs.flatMap Factor.legs = gs.flatMap Factor.legs := by
    induction h with
    | nil => rfl
    | cons h1 _ ih => simp only [List.flatMap_cons, h1.1, ih]
  have hused : usedEdges fs opn = usedEdges gs opn := by unfold usedEdges; rw [hlegs]
  unfold einsum
  rw [← hused]
  refine sumOver_congr_reach fun a ha => ?_
  have : prodAt fs a = prodAt gs a := by
    have hd : ∀ f ∈ fs, ∀ e ∈ f.legs, a e ∈ dom e := fun f hf e he =>
      ha.2 e (mem_usedEdges.2 (Or.inl ⟨f, hf, he⟩))
    clear ha hused hlegs
    induction h with
    | nil => rfl
    | @cons f g fs gs h1 _ ih =>
      rw [prodAt_cons, prodAt_cons, ih fun f hf => hd f (by simp [hf])]
      congr 1
      unfold Factor.at
      rw [← h1.1]
      exact h1.2 a (hd f (by simp))
  rw [this]

end

namespace TN

variable {τ : Type}

theorem factors_perm {tn tn' : TN τ} (val : τ → List Nat → R) (h : tn.nodes.Perm tn'.nodes) :
    (tn.factors val).Perm (tn'.factors val) := h.map _

theorem mem_factors {tn : TN τ} {val : τ → List Nat → R} {f : Factor Nm R} (hn : tn.nodes.keys.Nodup) :
    f ∈ tn.factors val ↔ ∃ n r, tn.nodes.get? n = some r ∧ f = r.factor val := by
  unfold factors
  rw [List.mem_map]
  constructor
  · rintro ⟨⟨n, r⟩, hp, rfl⟩; exact ⟨n, r, Dict.get?_of_mem hn hp, rfl⟩
  · rintro ⟨n, r, hr, rfl⟩; exact ⟨(n, r), Dict.mem_of_get? hr, rfl⟩

theorem factor_legs (val : τ → List Nat → R) (r : NodeRec τ) : (r.factor val).legs = r.legs := rfl

/-- Splitting the node table into the entries with a given list of names and the others. -/
theorem split_nodes {D : Dict Nm (NodeRec τ)} (hn : D.keys.Nodup) {ns : List Nm} (hns : ns.Nodup)
    {f : Nm → NodeRec τ} (hf : ∀ n ∈ ns, D.get? n = some (f n)) :
    D.Perm (ns.map (fun n => (n, f n)) ++ D.filterKeys fun n => !(ns.contains n)) := by
  have hDn : D.Nodup := List.Nodup.of_map Prod.fst hn
  refine (List.perm_ext_iff_of_nodup hDn ?_).2 ?_
  · refine List.nodup_append.2 ⟨hns.map fun a b hab => by simpa using congrArg Prod.fst hab, hDn.filter _, ?_⟩
    rintro p hp q hq rfl
    obtain ⟨n, hn1, rfl⟩ := List.mem_map.1 hp
    simp [Dict.filterKeys, hn1] at hq
  · rintro ⟨n, r⟩
    simp only [List.mem_append, List.mem_map, Dict.filterKeys, List.mem_filter, Prod.mk.injEq]
    constructor
    · intro h
      by_cases hm : n ∈ ns
      · refine Or.inl ⟨n, hm, rfl, ?_⟩
        have := Dict.get?_of_mem hn h
        rw [hf n hm] at this
        exact Option.some.inj this
      · exact Or.inr ⟨h, by simpa using hm⟩
    · rintro (⟨m, hm, rfl, rfl⟩ | ⟨h, _⟩)
      · exact Dict.mem_of_get? (hf m hm)
      · exact h

end TN
end Verif

namespace Verif.TN

variable {τ : Type} [HasShape τ]

/-- A checkable form of `TN.NodeReady` (for concrete examples). -/
def nodeReadyB (tn : TN τ) (r : NodeRec τ) : Bool :=
  match r.ten with
  | some t =>
    match HasShape.shape t with
    | some sh => sh.all Option.isSome && (sh.length == r.legs.length) &&
        (List.range r.legs.length).all fun i =>
          match r.legs[i]? with
          | some e =>
            match tn.edges.get? e with
            | some er => er.dim == (sh[i]?).join
            | none => false
          | none => true
    | none => false
  | none => false

/-- A checkable form of `TN.Ready` (for concrete examples). -/
def readyB (tn : TN τ) : Bool :=
  tn.nodes.all (fun p => tn.nodeReadyB p.2) &&
  tn.openE.all fun e =>
    match tn.edges.get? e with
    | some er => er.dim.isSome
    | none => false

theorem ready_of_readyB {tn : TN τ} (h : tn.readyB = true) : tn.Ready := by
  unfold readyB at h
  rw [Bool.and_eq_true, List.all_eq_true, List.all_eq_true] at h
  refine ⟨fun n r hr => ?_, fun e he => ?_⟩
  · have h1 := h.1 _ (Dict.mem_of_get? hr)
    unfold nodeReadyB at h1
    split at h1
    · next t ht =>
      split at h1
      · next sh hs =>
        rw [Bool.and_eq_true, Bool.and_eq_true, List.all_eq_true, List.all_eq_true, beq_iff_eq] at h1
        obtain ⟨⟨h2, h3⟩, h4⟩ := h1
        refine ⟨t, sh.map fun x => x.getD 0, ht, ?_, by simpa using h3, fun i e hi => ?_⟩
        · rw [hs, List.map_map]
          congr 1
          refine (List.map_id' sh).symm.trans (List.map_congr_left fun x hx => ?_)
          obtain ⟨d, hd⟩ := Option.isSome_iff_exists.1 (h2 x hx)
          simp [hd]
        · have hlt := (List.getElem?_eq_some_iff.1 hi).1
          have h5 := h4 i (List.mem_range.2 hlt)
          simp only [hi] at h5
          split at h5
          · next er her =>
            refine ⟨er, her, ?_⟩
            rw [beq_iff_eq] at h5
            rw [h5, List.getElem?_map]
            have hlt' : i < sh.length := by rw [h3]; exact hlt
            rw [List.getElem?_eq_getElem hlt']
            obtain ⟨d, hd⟩ := Option.isSome_iff_exists.1 (h2 sh[i] (List.getElem_mem hlt'))
            simp [hd]
          · simp at h5
      · simp at h1
    · simp at h1
  · have h1 := h.2 e he
    split at h1
    · next er her =>
      obtain ⟨d, hd⟩ := Option.isSome_iff_exists.1 h1
      exact ⟨er, d, her, hd⟩
    · simp at h1

end Verif.TN
