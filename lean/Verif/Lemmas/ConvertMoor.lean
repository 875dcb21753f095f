import Verif.Lemmas.ConvertNet
import Verif.Lemmas.FixShort
/-!
# Helper lemmas: in the network made of a circuit every edge is on a leg or fixed
-/

set_option linter.unusedSectionVars false

namespace Verif

namespace Circ

variable {α τ : Type}

/-- No edge is fixed to two values, and every edge is on a leg, fixed, or in `P`. -/
def Anchored (P : Nm → Prop) (tn : TN τ) : Prop :=
  tn.FixShort ∧ ∀ e ∈ tn.edges.keys, (∃ p ∈ tn.nodes, e ∈ p.2.legs) ∨ tn.IsFixed e ∨ P e

theorem Anchored.imp {P Q : Nm → Prop} {tn : TN τ} (h : Anchored P tn) (hpq : ∀ e, P e → Q e) : Anchored Q tn :=
  ⟨h.1, fun e he => (h.2 e he).imp id (Or.imp id (hpq e))⟩

theorem convEdges_moor {P : Nm → Prop} {es : List Nm} : ∀ {s s' : Conv τ}, Anchored P s.tn → convEdges es s = .ok s' →
    Anchored (fun e => P e ∨ e ∈ es) s'.tn := by
  induction es generalizing P with
  | nil =>
    intro s s' hi h
    rw [convEdges] at h; cases h
    exact hi.imp fun e => Or.inl
  | cons e es ih =>
    intro s s' hi h
    rw [convEdges] at h
    split at h
    · exact (ih hi h).imp fun x hx => hx.imp id (List.mem_cons_of_mem _)
    · split at h
      · cases h
      · next tn' e' h' =>
        obtain ⟨E', f1, f2⟩ := TN.addEdge_some_ext s.tn e (some 2)
        rw [h'] at f1
        obtain ⟨f3, r, f4, f5⟩ := TN.addEdge_ok h'
        obtain rfl := f3 e rfl
        dsimp only at f1
        subst f1
        have hi' : Anchored (fun x => P x ∨ x = e) ({ s.tn with edges := E' } : TN τ) := by
          refine ⟨fun x r' l hr' hl => ?_, fun x hx => ?_⟩
          · by_cases hx : x ∈ s.tn.edges.keys
            · obtain ⟨r0, hr0⟩ := Dict.exists_get? hx
              obtain ⟨r1, g1, g2, g3⟩ := f2.grow.ent x r0 hr0
              obtain rfl : r1 = r' := by
                have : some r1 = some r' := g1.symm.trans hr'
                exact Option.some.inj this
              exact hi.1 x r0 l hr0 (g2 ▸ hl)
            · rw [f2.nofix x r' hx hr'] at hl; cases hl
          · rcases (f2.keys x).1 hx with h | h
            · rcases hi.2 x h with h | ⟨r0, l, h1, h2⟩ | h
              · exact Or.inl h
              · obtain ⟨r1, g1, g2, g3⟩ := f2.grow.ent x r0 h1
                exact Or.inr (Or.inl ⟨r1, l, g1, g2.trans h2⟩)
              · exact Or.inr (Or.inr (Or.inl h))
            · exact Or.inr (Or.inr (Or.inr (by simpa using h)))
        refine (ih (s := { s with tn := { s.tn with edges := E' }, all := s.all ++ [e] }) hi' h).imp fun x hx => ?_
        rcases hx with (h | h) | h
        · exact Or.inl h
        · exact Or.inr (by simp [h])
        · exact Or.inr (by simp [h])

theorem convPlace_moor [HasShape τ] {I : OpsIface α τ} {gate : Nm} {op : α} {outs ins : List Nm} {tn tn' : TN τ}
    (hc : tn.Consistent) (hi : Anchored (fun e => e ∈ outs ++ ins) tn)
    (hb : ∀ b k, I.basis op = some (b, k) → (if b then outs else ins).length = 1 ∧ (if b then ins else outs).length = 0)
    (h : convPlace I gate op outs ins tn = .ok tn') : Anchored (fun _ => False) tn' := by
  unfold convPlace at h
  split at h
  · next b k hbk =>
    split at h
    · cases h
    · next e he =>
      split at h
      · next h' =>
        cases h
        obtain ⟨h1, h2⟩ := TN.fixEdge_isFixed h'
        obtain ⟨r0, r1, d, g1, g2, g3, rfl, -⟩ := TN.fixEdge_dom h'
        refine ⟨TN.fixEdge_short h' (by simp) hi.1, fun x hx => ?_⟩
        have hx : x ∈ tn.edges.keys := by
          change x ∈ (tn.edges.set e r1).keys at hx
          rwa [Dict.keys_set, if_pos (Dict.mem_keys_of_get? g1)] at hx
        rcases hi.2 x hx with h | h | h
        · exact Or.inl h
        · exact Or.inr (Or.inl (h2 x h))
        · have hxe : x = e := by
            obtain ⟨k1, k2⟩ := hb b k hbk
            cases b with
            | true =>
              obtain ⟨y, hy⟩ := List.length_eq_one_iff.1 k1
              have hn := List.length_eq_zero_iff.1 k2
              simp only [↓reduceIte] at he hy hn
              rw [hy] at he h
              rw [hn] at h
              simp at he h
              rw [h, he]
            | false =>
              obtain ⟨y, hy⟩ := List.length_eq_one_iff.1 k1
              have hn := List.length_eq_zero_iff.1 k2
              simp only [↓reduceIte, Bool.false_eq_true] at he hy hn
              rw [hy] at he h
              rw [hn] at h
              simp at he h
              rw [h, he]
          exact Or.inr (Or.inl (hxe ▸ h1))
      · cases h
  · split at h
    · cases h
    · next t ht =>
      split at h
      · next tn' g' h' =>
        cases h
        obtain ⟨hn, hg, legs, fr, E', f1, rfl, f3, f4⟩ := TN.addNode_ok h'
        cases f1
        dsimp only [Option.getD_some] at hn
        subst hn
        refine ⟨fun x r' l hr' hl => ?_, fun x hx => ?_⟩
        · by_cases hx : x ∈ tn.edges.keys
          · obtain ⟨r0, hr0⟩ := Dict.exists_get? hx
            obtain ⟨r1, g1, g2, g3⟩ := f3.grow.ent x r0 hr0
            obtain rfl : r1 = r' := by
              have : some r1 = some r' := g1.symm.trans hr'
              exact Option.some.inj this
            exact hi.1 x r0 l hr0 (g2 ▸ hl)
          · rw [f3.nofix x r' hx hr'] at hl; cases hl
        · have hnew : x ∈ outs ++ ins → ∃ p ∈ Dict.set tn.nodes g' ⟨outs ++ ins, some t, false⟩, x ∈ p.2.legs := fun h =>
            ⟨(g', ⟨outs ++ ins, some t, false⟩), Dict.mem_of_get? (by rw [Dict.get?_set, if_pos rfl]), h⟩
          rcases (f3.keys x).1 hx with h | h
          · rcases hi.2 x h with ⟨p, hp, h⟩ | ⟨r0, l, h1, h2⟩ | h
            · refine Or.inl ⟨p, Dict.mem_of_get? ?_, h⟩
              have hpg := Dict.get?_of_mem hc.nodes_nodup hp
              refine (Dict.get?_set _ _ _ _).trans ((if_neg ?_).trans hpg)
              rintro rfl
              simp [TN.nameTaken, Dict.has, hpg] at hg
            · obtain ⟨r1, g1, g2, g3⟩ := f3.grow.ent x r0 h1
              exact Or.inr (Or.inl ⟨r1, l, g1, g2.trans h2⟩)
            · exact Or.inl (hnew h)
          · exact Or.inl (hnew h)
      · cases h

/-- Basis states and measurements act on one qubit. -/
def BasisSingle (I : OpsIface α τ) (op : α) : Prop :=
  ∀ b k s, I.basis op = some (b, k) → I.shape op = .ok s → s = if b then [[.o]] else [[.i]]

theorem convLoop_moor [HasShape τ] {I : OpsIface α τ} {ops : Circ α} (hb : ∀ p ∈ ops, BasisSingle I p.2.op) :
    ∀ {gs : List (Int × Nat × Nm × OpRec α)} {s s' : Conv τ}, (∀ g ∈ gs, g.2.2 ∈ ops) → NetInv I ops s.tn →
    (∀ e ∈ s.all, e ∈ s.tn.edges.keys) → Mentions (· ∈ s.all) s → Anchored (fun _ => False) s.tn →
    convLoop I gs s = .ok s' → Anchored (fun _ => False) s'.tn
  | [], s, s', _, hi, ha, hm, hA, h => by rw [convLoop] at h; cases h; exact hA
  | (t, idx, gate, r) :: gs, s, s', hg, hi, ha, hm, hA, h => by
    rw [convLoop] at h
    split at h
    · cases h
    · next s1 h1 =>
      have hp : (gate, r) ∈ ops := hg (t, idx, gate, r) (by simp)
      unfold convGate at h1
      split at h1
      · cases h1
      · next sh hsh =>
        split at h1
        · cases h1
        · next outs c1 k1 =>
          obtain ⟨a1, a2, a3, a4, a5⟩ := convOuts_net hm k1
          split at h1
          · cases h1
          · next ins c2 k2 =>
            obtain ⟨b1, b2, b3, b4, b5⟩ := convIns_net a5 k2
            split at h1
            · cases h1
            · next c3 k3 =>
              have hw : ∀ e ∈ outs ++ ins, IsWire e := fun e he => by
                rcases List.mem_append.1 he with he | he
                · rcases a2 e he with h | h
                  · exact hi.wires e (ha e h)
                  · exact h
                · exact b2 e he
              obtain ⟨d1, d2, d3, d4, d5, d6⟩ := convEdges_net (I := I) (ops := ops) (by rw [b4, a4]; exact hi)
                (by rw [b4, a4, b3, a3]; exact ha) hw k3
              have hA1 := convEdges_moor (P := fun _ => False) (by rw [b4, a4]; exact hA) k3
              split at h1
              · cases h1
              · next tn' k4 =>
                cases h1
                have hA2 := convPlace_moor d1.cons (hA1.imp fun e he => he.elim False.elim id) (fun b k hbk => by
                  have := hb (gate, r) hp b k sh hbk hsh
                  subst this
                  cases b
                  · exact ⟨by simp only [Bool.false_eq_true, ↓reduceIte]; rw [b1]; rfl, by simp only [Bool.false_eq_true, ↓reduceIte]; rw [a1]; rfl⟩
                  · exact ⟨by simp only [↓reduceIte]; rw [a1]; rfl, by simp only [↓reduceIte]; rw [b1]; rfl⟩) k4
                obtain ⟨e1, e2⟩ := convPlace_net d1 hp hsh
                  (by rw [List.length_append, a1, b1, indicesWith_endsOut, indicesWith_startsIn])
                  (fun e he => d2 e (d3 e (Or.inr he))) k4
                refine convLoop_moor hb (gs := gs) (s := { c3 with tn := tn' }) (fun g hg' => hg g (by simp [hg'])) e1
                  (fun e he => e2 e (d2 e he)) ?_ hA2 h
                have hall : ∀ e, (e ∈ s.all ∨ e ∈ outs) ∨ e ∈ ins → e ∈ c3.all := fun e he => d3 e (by
                  rw [b3, a3]
                  rcases he with (h | h) | h
                  · exact Or.inl h
                  · exact Or.inr (List.mem_append_left _ h)
                  · exact Or.inr (List.mem_append_right _ h))
                refine ⟨fun q e he => hall e (b5.1 q e ?_), fun q e he => hall e (b5.2.1 q e ?_), fun q e he => hall e (b5.2.2 q e ?_)⟩
                · rw [← d4]; exact he
                · rw [← d5]; exact he
                · rw [← d6]; exact he

/-- In the network made of a circuit every edge is on a leg or fixed, and none is fixed to two values. -/
theorem convertPure_moor [HasShape τ] {I : OpsIface α τ} {c : Circ α} {tn : TN τ} (hb : ∀ p ∈ c, BasisSingle I p.2.op)
    (h : c.convertPure I = .ok tn) : Anchored (fun _ => False) tn := by
  unfold convertPure at h
  split at h
  · cases h
  · cases h
  · split at h
    · cases h
    · next s hs =>
      cases h
      exact convLoop_moor hb (s := {}) (fun g hg => (visit_perm c).mem_iff.1 (List.mem_reverse.2 (List.mem_map.2 ⟨g, hg, rfl⟩)))
        netInv_nil (by simp) ⟨by simp [Dict.get?], by simp [Dict.get?], by simp [Dict.get?]⟩
        ⟨fun e r l h => by simp [Dict.get?] at h, by simp [Dict.keys]⟩ hs

end Circ

end Verif
