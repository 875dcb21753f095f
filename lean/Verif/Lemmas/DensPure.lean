import Verif.Model.Density
import Verif.Lemmas.Tot
import Verif.Lemmas.Operation
import Verif.Props.Conj
import Verif.Props.Expand
/-!
# Helper lemmas: conjugates of networks that can be flattened; two nodes side by side
-/

set_option linter.unusedSectionVars false

namespace Verif

variable {τ : Type} [HasShape τ]

/-- The edge names `k, ..., k+r-1`. -/
def shiftLegs (k r : Nat) : List Nm := (List.range' k r).map fun i : Nat => Nm.int i

theorem shiftLegs_length (k r : Nat) : (shiftLegs k r).length = r := by simp [shiftLegs]

theorem shiftLegs_get {k r i : Nat} (h : i < r) : (shiftLegs k r)[i]? = some (Nm.int (k + i : Nat)) := by
  simp [shiftLegs, h]

theorem mem_shiftLegs {k r : Nat} {e : Nm} : e ∈ shiftLegs k r ↔ ∃ i : Nat, i < r ∧ e = Nm.int (k + i : Nat) := by
  simp only [shiftLegs, List.mem_map, List.mem_range'_1]
  constructor
  · rintro ⟨a, h, rfl⟩
    exact ⟨a - k, by omega, by congr 2; omega⟩
  · rintro ⟨i, h, rfl⟩
    exact ⟨k + i, by omega, rfl⟩

theorem shiftLegs_map (a b : List Nat) : (shiftLegs a.length b.length).map (listAsg (a ++ b)) = b := by
  apply List.ext_getElem?
  intro i
  by_cases hi : i < b.length
  · rw [List.getElem?_map, shiftLegs_get hi, Option.map_some, listAsg_int, List.getElem?_append_right (by omega)]
    simp [hi]
  · rw [List.getElem?_eq_none (by simp [shiftLegs]; omega), List.getElem?_eq_none (by omega)]

/-- One named node on new edges beside those of a network on the edges `0, 1, ...`. -/
theorem addNode_shift {tn : TN τ} {i : Nm} {t : τ} {o : Bool} {S0 sh : List Nat} (hd : HasDims tn S0)
    (hi : i ∉ tn.nodes.keys) (hs : HasShape.shape t = some (sh.map some)) (hnd : tn.edges.keys.Nodup) :
    ∃ tn', tn.addNode (some i) i (some (shiftLegs S0.length sh.length)) t o = (tn', .ok i) ∧ HasDims tn' (S0 ++ sh) ∧
      tn'.nodes = tn.nodes ++ [(i, ⟨shiftLegs S0.length sh.length, some t, false⟩)] ∧ tn'.edges.keys.Nodup := by
  have hnew : ∀ k : Nat, k < sh.length → Nm.int (S0.length + k : Nat) ∉ tn.edges.keys := by
    intro k _ h
    rw [hd.1, mem_rangeLegs] at h
    obtain ⟨k', hk', he⟩ := h
    have : S0.length + k = k' := by
      have := Nm.int.inj he
      omega
    omega
  obtain ⟨tn', hok⟩ := TN.addNode_total (tn := tn) (n := i) (i := i) (es := shiftLegs S0.length sh.length) (t := t)
    (D := listAsg (S0 ++ sh)) (isOpen := o) hi (by rw [hs, shiftLegs_map]) (by
      intro e he er her
      obtain ⟨k, hk, rfl⟩ := mem_shiftLegs.1 he
      exact absurd (Dict.mem_keys_of_get? her) (hnew k hk))
  refine ⟨tn', hok, ?_⟩
  obtain ⟨-, -, legs, frozen, E', h3, rfl, h5, h6⟩ := TN.addNode_ok hok
  cases h3
  obtain ⟨-, h7⟩ := h6 _ hs
  refine ⟨⟨fun e => ?_, fun k d hk => ?_⟩, by simpa using Dict.set_eq_append hi _, h5.grow.nodup hnd⟩
  · rw [h5.keys, hd.1, mem_rangeLegs, mem_rangeLegs, mem_shiftLegs, List.length_append]
    constructor
    · rintro (⟨k, hk, rfl⟩ | ⟨k, hk, rfl⟩)
      · exact ⟨k, by omega, rfl⟩
      · exact ⟨S0.length + k, by omega, rfl⟩
    · rintro ⟨k, hk, rfl⟩
      by_cases h : k < S0.length
      · exact Or.inl ⟨k, h, rfl⟩
      · exact Or.inr ⟨k - S0.length, by omega, by congr 2; omega⟩
  · by_cases h : k < S0.length
    · rw [List.getElem?_append_left h] at hk
      obtain ⟨r', hr', hf, hdim⟩ := h5.grow.ent _ _ (hd.2 k d hk)
      show Dict.get? E' _ = _
      rw [hr']
      obtain ⟨dm, fx⟩ := r'
      have hdim := hdim d rfl
      dsimp only at hf hdim
      rw [hf, hdim]
    · rw [List.getElem?_append_right (by omega)] at hk
      have hk1 : k - S0.length < sh.length := (List.getElem?_eq_some_iff.1 hk).1
      obtain ⟨r, hr, hdim⟩ := h7 (k - S0.length) (Nm.int k) d
        (by rw [shiftLegs_get hk1]; congr 3; omega) (by rw [List.getElem?_map, hk]; rfl)
      have hno := hnew _ hk1
      rw [show S0.length + (k - S0.length) = k by omega] at hno
      have hf := h5.nofix _ r hno hr
      show Dict.get? E' _ = _
      rw [hr]
      obtain ⟨dm, fx⟩ := r
      dsimp only at hf hdim
      rw [hf, hdim]

namespace TVal

variable {R : Type} [CommSemiring R] [StarRing R]

/-- The nodes of a conjugate. -/
theorem conjNodes_forall : ∀ (ns ns' : List (Nm × NodeRec (TVal R))), conjNodes ns = .ok ns' →
    List.Forall₂ (fun p p' => p'.1 = p.1 ∧ p'.2.legs = p.2.legs ∧
      ∃ t t', p.2.ten = some t ∧ p'.2.ten = some t' ∧ conj t = .ok t') ns ns'
  | [], ns', h => by rw [conjNodes] at h; cases h; exact .nil
  | (n, ⟨legs, none, fr⟩) :: ns, ns', h => by rw [conjNodes] at h; cases h
  | (n, ⟨legs, some t, fr⟩) :: ns, ns', h => by
    rw [conjNodes] at h
    split at h
    · rename_i t1 ts1 h1 h2
      cases h
      exact .cons ⟨rfl, rfl, t, t1, rfl, rfl, h1⟩ (conjNodes_forall ns ts1 h2)
    · cases h
    · cases h

theorem forall_keys {P : Nm × NodeRec (TVal R) → Nm × NodeRec (TVal R) → Prop} {ns ns' : List (Nm × NodeRec (TVal R))}
    (h : List.Forall₂ (fun p p' => p'.1 = p.1 ∧ P p p') ns ns') : Dict.keys ns' = Dict.keys ns := by
  induction h with
  | nil => rfl
  | cons h _ ih => simp only [Dict.keys, List.map_cons] at ih ⊢; rw [h.1, ih]

theorem forall_get {P : Nm × NodeRec (TVal R) → Nm × NodeRec (TVal R) → Prop} {ns ns' : List (Nm × NodeRec (TVal R))}
    (h : List.Forall₂ (fun p p' => p'.1 = p.1 ∧ P p p') ns ns') {n : Nm} {r' : NodeRec (TVal R)}
    (hr : Dict.get? ns' n = some r') : ∃ r, Dict.get? ns n = some r ∧ P (n, r) (n, r') := by
  induction h with
  | nil => cases hr
  | @cons p p' _ _ h _ ih =>
    obtain ⟨k, v⟩ := p
    obtain ⟨k', v'⟩ := p'
    obtain ⟨h1, h2⟩ := h
    dsimp only at h1
    subst h1
    rw [Dict.get?] at hr ⊢
    split at hr
    · next hk => subst hk; cases hr; exact ⟨v, by simp, h2⟩
    · next hk => rw [if_neg hk]; exact ih hr

theorem forall_get' {P : Nm × NodeRec (TVal R) → Nm × NodeRec (TVal R) → Prop} {ns ns' : List (Nm × NodeRec (TVal R))}
    (h : List.Forall₂ (fun p p' => p'.1 = p.1 ∧ P p p') ns ns') {n : Nm} {r : NodeRec (TVal R)}
    (hr : Dict.get? ns n = some r) : ∃ r', Dict.get? ns' n = some r' ∧ P (n, r) (n, r') := by
  have hk := forall_keys h
  obtain ⟨r', hr'⟩ := Dict.exists_get? (hk ▸ Dict.mem_keys_of_get? hr : n ∈ Dict.keys ns')
  obtain ⟨r0, h0, h1⟩ := forall_get h hr'
  rw [hr] at h0; cases h0
  exact ⟨r', hr', h1⟩

theorem conj_net {t t' : TVal R} (h : conj t = .ok t') (hn : t'.IsNet) : t.IsNet := by
  obtain ⟨s', rfl⟩ := hn
  cases t with
  | ten o => cases o <;> (rw [conj] at h; cases h)
  | sum ts =>
    rw [conj] at h
    split at h
    · cases h
    · cases hc : conjTerms ts <;> rw [hc] at h <;> cases h
  | net ns es adj op c => exact ⟨⟨ns, es, adj, op, c⟩, rfl⟩
  | view t => rw [conj] at h; cases h

theorem conj_ofTN {tn : TN (TVal R)} {t' : TVal R} (h : conj (ofTN tn) = .ok t') :
    ∃ tn', t' = ofTN tn' ∧ conjNodes tn.nodes = .ok tn'.nodes ∧ tn'.edges = tn.edges ∧ tn'.adj = tn.adj ∧
      tn'.openE = tn.openE := by
  unfold ofTN at h
  rw [conj] at h
  cases hc : conjNodes tn.nodes with
  | error e => rw [hc] at h; cases h
  | ok ns' => rw [hc] at h; cases h; exact ⟨⟨ns', tn.edges, tn.adj, tn.openE, 0⟩, rfl, rfl, rfl, rfl, rfl⟩

theorem ofTN_inj {a b : TN (TVal R)} (h : ofTN a = ofTN b) : a = b := by
  obtain ⟨_, _, _, _, _⟩ := a
  obtain ⟨_, _, _, _, _⟩ := b
  simp only [ofTN, net.injEq] at h
  obtain ⟨rfl, rfl, rfl, rfl, rfl⟩ := h
  rfl

/-- Conjugates of networks that can be flattened can be flattened. -/
theorem expandable_conj : ∀ (k : Nat) {tn tn' : TN (TVal R)}, Expandable k tn → conj (ofTN tn) = .ok (ofTN tn') →
    Expandable k tn'
  | 0, _, _, h, _ => h.elim
  | k + 1, tn, tn', h, hc => by
    obtain ⟨tn1, e1, hn, he, ha, ho⟩ := conj_ofTN hc
    obtain rfl := ofTN_inj e1
    obtain ⟨h1, h2, h3, h4⟩ := h
    have hf := conjNodes_forall _ _ hn
    have hkeys := forall_keys hf
    have hedim : tn'.edim = tn.edim := by unfold TN.edim; rw [he]
    refine ⟨⟨?_, ?_, fun n r hr e hel => ?_, ?_, fun n e => ?_, ?_⟩, ?_, ⟨?_, ?_, ?_, ?_, fun n r t hr ht hi => ?_, fun n r t hr ht hi => ?_⟩,
      fun n r hr => ?_⟩
    · rw [hkeys]; exact h1.nodes_nodup
    · rw [he]; exact h1.edges_nodup
    · obtain ⟨r0, g1, g2, -⟩ := forall_get hf hr
      rw [he]
      exact h1.legs_exist n r0 g1 e (g2 ▸ hel)
    · rw [ho, he]; exact h1.open_exist
    · rw [ha, h1.adj_iff]
      constructor
      · rintro ⟨r, g1, g2⟩
        obtain ⟨r', k1, k2, -⟩ := forall_get' hf g1
        exact ⟨r', k1, by dsimp only at k2; rw [k2]; exact g2⟩
      · rintro ⟨r', g1, g2⟩
        obtain ⟨r, k1, k2, -⟩ := forall_get hf g1
        exact ⟨r, k1, by dsimp only at k2; rw [← k2]; exact g2⟩
    · rw [ha]; exact h1.adj_nodup
    · unfold TN.Sized; rw [he]; exact h2
    · rw [hkeys]; exact h3.nodes_inj
    · rw [he]; exact h3.edges_inj
    · rw [hkeys]; exact h3.nodes_ne
    · rw [he]; exact h3.edges_ne
    · obtain ⟨r0, g1, -, t0, t', g2, g3, g4⟩ := forall_get hf hr
      dsimp only at g2 g3
      rw [ht] at g3; cases g3
      rw [hkeys]
      exact h3.nodes_under n r0 t0 g1 g2 (conj_net g4 hi)
    · obtain ⟨r0, g1, -, t0, t', g2, g3, g4⟩ := forall_get hf hr
      dsimp only at g2 g3
      rw [ht] at g3; cases g3
      rw [he]
      exact h3.edges_under n r0 t0 g1 g2 (conj_net g4 hi)
    · obtain ⟨r0, g1, gl, t0, t', g2, g3, g4⟩ := forall_get hf hr
      dsimp only at g2 g3 gl
      obtain ⟨t1, k1, k2, k3⟩ := h4 n r0 g1
      rw [g2] at k1; cases k1
      refine ⟨t', g3, fun u hu => ?_, fun s hs => ?_⟩
      · subst hu
        cases t0 with
        | ten o => cases o <;> (rw [conj] at g4; cases g4)
        | sum ts =>
          rw [conj] at g4
          split at g4
          · cases g4
          · cases hc : conjTerms ts <;> rw [hc] at g4 <;> cases g4
        | net ns es adj op c => rw [conj] at g4; cases hc : conjNodes ns <;> rw [hc] at g4 <;> cases g4
        | view t => exact k2 t rfl
      · subst hs
        obtain ⟨s0, rfl⟩ := conj_net g4 ⟨s, rfl⟩
        obtain ⟨m1, m2⟩ := k3 s0 rfl
        refine ⟨expandable_conj k m1 g4, ?_⟩
        have := (conj_spec _ _ g4).1
        rw [gl, hedim, ← m2]
        exact this

/-- `expand` of the conjugate. -/
theorem expandVal_conj {G : TN.Glue} (hG : G.Sound) {k : Nat} {tp tc : TVal R} (hc : conj tp = .ok tc)
    (he : ∀ tn, tp = ofTN tn → Expandable k tn) :
    ∃ te, expandVal G k tc = .ok te ∧ te.shape = tp.shape ∧ ∀ idx, te.tot idx = star (tp.tot idx) := by
  have hs := (conj_spec _ _ hc).1
  have ht := conj_tot _ _ hc
  by_cases hn : tc.IsNet
  · obtain ⟨tn0, rfl⟩ := conj_net hc hn
    obtain ⟨tn', rfl⟩ := hn
    obtain ⟨tn'', h1, -, h3, -, h5⟩ := c17_total hG (expandable_conj k (he tn0 rfl) hc)
    refine ⟨ofTN tn'', ?_, ?_, fun idx => ?_⟩
    · unfold ofTN expandVal
      dsimp only
      rw [show (⟨tn'.nodes, tn'.edges, tn'.adj, tn'.openE, tn'.idCount⟩ : TN (TVal R)) = tn' from rfl, h1]
      rfl
    · rw [← hs]; exact h3
    · rw [tot_ofTN, h5, ← tot_ofTN, ht]
  · refine ⟨tc, ?_, hs, ht⟩
    cases tc with
    | net ns es adj op c => exact absurd ⟨⟨ns, es, adj, op, c⟩, rfl⟩ hn
    | ten => rfl
    | sum => rfl
    | view => rfl

end TVal

end Verif
