import Verif.Lemmas.CircMat
import Verif.Lemmas.Merge
import Verif.Lemmas.Operation
import Verif.Spec.Expand
/-!
# Helper lemmas: the network made of a circuit is well formed and can be flattened
-/

set_option linter.unusedSectionVars false

namespace Verif

namespace Circ

variable {α τ : Type}

/-- The edges that the dictionaries mention. -/
def Mentions (P : Nm → Prop) (s : Conv τ) : Prop :=
  (∀ q e, s.dic.get? q = some e → P e) ∧ (∀ q e, s.dicIn.get? q = some e → P e) ∧ ∀ q e, s.dicOut.get? q = some e → P e

theorem Mentions.imp {P Q : Nm → Prop} {s : Conv τ} (h : Mentions P s) (hpq : ∀ e, P e → Q e) : Mentions Q s :=
  ⟨fun q e he => hpq e (h.1 q e he), fun q e he => hpq e (h.2.1 q e he), fun q e he => hpq e (h.2.2 q e he)⟩

theorem get_del {V : Type} {d : Dict Int V} {q q' : Int} {v : V} (h : (d.del q).get? q' = some v) : d.get? q' = some v := by
  rw [Dict.get?_del] at h
  split at h
  · cases h
  · exact h

theorem get_set {V : Type} {d : Dict Int V} {q q' : Int} {v w : V} (h : (d.set q w).get? q' = some v) :
    v = w ∨ d.get? q' = some v := by
  rw [Dict.get?_set] at h
  split at h
  · cases h; exact Or.inl rfl
  · exact Or.inr h

/-- A wire name. -/
def IsWire (e : Nm) : Prop := ∃ t i q, e = wireName t i q

theorem convOuts_net {t : Int} {idx : Nat} {qs : List Int} {is : List Nat} : ∀ {P : Nm → Prop} {s s' : Conv τ} {es : List Nm},
    Mentions P s → convOuts t idx qs is s = .ok (es, s') →
    es.length = is.length ∧ (∀ e ∈ es, P e ∨ IsWire e) ∧ s'.all = s.all ∧ s'.tn = s.tn ∧ Mentions (fun e => P e ∨ e ∈ es) s' := by
  induction is with
  | nil =>
    intro P s s' es hm h
    rw [convOuts] at h; cases h
    exact ⟨rfl, by simp, rfl, rfl, hm.imp fun e he => Or.inl he⟩
  | cons i is ih =>
    intro P s s' es hm h
    rw [convOuts] at h
    split at h
    · cases h
    · next q hq =>
      split at h
      · split at h
        · cases h
        · next es1 s1 h' =>
          cases h
          obtain ⟨a1, a2, a3, a4, a5⟩ := ih (P := fun e => P e ∨ e = wireName (t + 1) idx q) (s := { s with dicOut := s.dicOut.set q (wireName (t + 1) idx q) })
            ⟨fun q e he => Or.inl (hm.1 q e he), fun q e he => Or.inl (hm.2.1 q e he), fun q e he => by
              rcases get_set he with h | h
              · exact Or.inr h
              · exact Or.inl (hm.2.2 q e h)⟩ h'
          refine ⟨by simp [a1], fun e he => ?_, a3, a4, a5.imp fun e he => ?_⟩
          · rcases List.mem_cons.1 he with rfl | he
            · exact Or.inr ⟨_, _, _, rfl⟩
            · rcases a2 e he with (h | rfl) | h
              · exact Or.inl h
              · exact Or.inr ⟨_, _, _, rfl⟩
              · exact Or.inr h
          · rcases he with (h | rfl) | h
            · exact Or.inl h
            · exact Or.inr (by simp)
            · exact Or.inr (by simp [h])
      · next e0 he0 =>
        split at h
        · split at h
          · cases h
          · next es1 s1 h' =>
            cases h
            obtain ⟨a1, a2, a3, a4, a5⟩ := ih (P := P) (s := { s with dic := s.dic.del q, dicIn := s.dicIn.del q })
              ⟨fun q e he => hm.1 q e (get_del he), fun q e he => hm.2.1 q e (get_del he), hm.2.2⟩ h'
            refine ⟨by simp [a1], fun e he => ?_, a3, a4, a5.imp fun e he => ?_⟩
            · rcases List.mem_cons.1 he with rfl | he
              · exact Or.inl (hm.1 _ _ he0)
              · exact a2 e he
            · rcases he with h | h
              · exact Or.inl h
              · exact Or.inr (by simp [h])
        · cases h

theorem convIns_net {t : Int} {idx : Nat} {qs : List Int} {is : List Nat} : ∀ {P : Nm → Prop} {s s' : Conv τ} {es : List Nm},
    Mentions P s → convIns t idx qs is s = .ok (es, s') →
    es.length = is.length ∧ (∀ e ∈ es, IsWire e) ∧ s'.all = s.all ∧ s'.tn = s.tn ∧ Mentions (fun e => P e ∨ e ∈ es) s' := by
  induction is with
  | nil =>
    intro P s s' es hm h
    rw [convIns] at h; cases h
    exact ⟨rfl, by simp, rfl, rfl, hm.imp fun e he => Or.inl he⟩
  | cons i is ih =>
    intro P s s' es hm h
    rw [convIns] at h
    split at h
    · cases h
    · next q hq =>
      split at h
      · cases h
      · next es1 s1 h' =>
        cases h
        obtain ⟨a1, a2, a3, a4, a5⟩ := ih (P := fun e => P e ∨ e = wireName t idx q)
          (s := { s with dic := s.dic.set q (wireName t idx q), dicIn := s.dicIn.set q (wireName t idx q) })
          ⟨fun q e he => by
              rcases get_set he with h | h
              · exact Or.inr h
              · exact Or.inl (hm.1 q e h), fun q e he => by
              rcases get_set he with h | h
              · exact Or.inr h
              · exact Or.inl (hm.2.1 q e h), fun q e he => Or.inl (hm.2.2 q e he)⟩ h'
        refine ⟨by simp [a1], fun e he => ?_, a3, a4, a5.imp fun e he => ?_⟩
        · rcases List.mem_cons.1 he with rfl | he
          · exact ⟨_, _, _, rfl⟩
          · exact a2 e he
        · rcases he with (h | rfl) | h
          · exact Or.inl h
          · exact Or.inr (by simp)
          · exact Or.inr (by simp [h])

/-- The network is well formed: its edges are wires with two values, its nodes come from the operations. -/
structure NetInv (I : OpsIface α τ) (ops : Circ α) (tn : TN τ) : Prop where
  cons : tn.Consistent
  wires : ∀ e ∈ tn.edges.keys, IsWire e
  dims : ∀ e r, tn.edges.get? e = some r → r.dim = some 2 ∧ ∀ f, r.fix = some f → ∀ v ∈ f, v < 2
  nodes : ∀ n r, tn.nodes.get? n = some r → ∃ p ∈ ops, p.1 = n ∧ ∃ t s, r.ten = some t ∧ I.tensor p.2.op = .ok t ∧
    I.shape p.2.op = .ok s ∧ r.legs.length = (outPlaces s).length + (inPlaces s).length

theorem convEdges_net {I : OpsIface α τ} {ops : Circ α} {es : List Nm} : ∀ {s s' : Conv τ}, NetInv I ops s.tn →
    (∀ e ∈ s.all, e ∈ s.tn.edges.keys) → (∀ e ∈ es, IsWire e) → convEdges es s = .ok s' →
    NetInv I ops s'.tn ∧ (∀ e ∈ s'.all, e ∈ s'.tn.edges.keys) ∧ (∀ e, e ∈ s.all ∨ e ∈ es → e ∈ s'.all) ∧
      s'.dic = s.dic ∧ s'.dicIn = s.dicIn ∧ s'.dicOut = s.dicOut := by
  induction es with
  | nil =>
    intro s s' hi ha hw h
    rw [convEdges] at h; cases h
    exact ⟨hi, ha, by simp, rfl, rfl, rfl⟩
  | cons e es ih =>
    intro s s' hi ha hw h
    rw [convEdges] at h
    split at h
    · next he =>
      obtain ⟨a1, a2, a3, a4⟩ := ih hi ha (fun e he => hw e (by simp [he])) h
      refine ⟨a1, a2, fun e' he' => a3 e' ?_, a4⟩
      rcases he' with h | h
      · exact Or.inl h
      · rcases List.mem_cons.1 h with rfl | h
        · exact Or.inl he
        · exact Or.inr h
    · split at h
      · cases h
      · next tn' e' h' =>
        have hcons := hi.cons.addEdge (some e) (some 2)
        obtain ⟨E', f1, f2⟩ := TN.addEdge_some_ext s.tn e (some 2)
        rw [h'] at f1 hcons
        obtain ⟨f3, r, f4, f5⟩ := TN.addEdge_ok h'
        obtain rfl := f3 e rfl
        dsimp only at f1 hcons
        subst f1
        have hi' : NetInv I ops { s.tn with edges := E' } := by
          refine ⟨hcons, fun x hx => ?_, fun x r' hr' => ?_, hi.nodes⟩
          · rcases (f2.keys x).1 hx with h | h
            · exact hi.wires x h
            · rw [List.mem_singleton] at h; subst h; exact hw _ (by simp)
          · by_cases hx : x ∈ s.tn.edges.keys
            · obtain ⟨r0, hr0⟩ := Dict.exists_get? hx
              obtain ⟨r1, g1, g2, g3⟩ := f2.grow.ent x r0 hr0
              obtain rfl : r1 = r' := by
                have : some r1 = some r' := g1.symm.trans hr'
                exact Option.some.inj this
              obtain ⟨k1, k2⟩ := hi.dims x r0 hr0
              exact ⟨g3 2 k1, fun f hf => k2 f (g2 ▸ hf)⟩
            · have hxe : x = e := by
                rcases (f2.keys x).1 (Dict.mem_keys_of_get? hr') with h | h
                · exact absurd h hx
                · simpa using h
              subst hxe
              have : some r = some r' := f4.symm.trans hr'
              cases this
              refine ⟨f5 2 rfl, fun f hf => ?_⟩
              rw [f2.nofix x r hx hr'] at hf; cases hf
        obtain ⟨a1, a2, a3, a4⟩ := ih (s := { s with tn := { s.tn with edges := E' }, all := s.all ++ [e] }) hi' (fun x hx => by
          rcases List.mem_append.1 hx with h | h
          · exact (f2.keys x).2 (Or.inl (ha x h))
          · exact (f2.keys x).2 (Or.inr h)) (fun e he => hw e (by simp [he])) h
        refine ⟨a1, a2, fun x hx => a3 x ?_, a4⟩
        rcases hx with h | h
        · exact Or.inl (List.mem_append_left _ h)
        · rcases List.mem_cons.1 h with rfl | h
          · exact Or.inl (by simp)
          · exact Or.inr h

theorem convPlace_net [HasShape τ] {I : OpsIface α τ} {ops : Circ α} {gate : Nm} {r : OpRec α} {outs ins : List Nm} {tn tn' : TN τ}
    {s : List (List Letter)} (hi : NetInv I ops tn) (hp : (gate, r) ∈ ops) (hs : I.shape r.op = .ok s)
    (hl : (outs ++ ins).length = (outPlaces s).length + (inPlaces s).length) (hk : ∀ e ∈ outs ++ ins, e ∈ tn.edges.keys)
    (h : convPlace I gate r.op outs ins tn = .ok tn') : NetInv I ops tn' ∧ ∀ e ∈ tn.edges.keys, e ∈ tn'.edges.keys := by
  unfold convPlace at h
  split at h
  · split at h
    · cases h
    · next e _ =>
      split at h
      · next h' =>
        cases h
        obtain ⟨r0, r1, d, g1, g2, g3, rfl, g5, g6, g7, -⟩ := TN.fixEdge_dom h'
        have hke : (tn.edges.set e r1).keys = tn.edges.keys := by
          rw [Dict.keys_set, if_pos (Dict.mem_keys_of_get? g1)]
        refine ⟨⟨hi.cons.setEdge (Dict.mem_keys_of_get? g1) _, fun x hx => hi.wires x (hke ▸ hx), fun x r' hr' => ?_, hi.nodes⟩,
          fun x hx => by show x ∈ (tn.edges.set e r1).keys; rw [hke]; exact hx⟩
        change (tn.edges.set e r1).get? x = some r' at hr'
        rw [Dict.get?_set] at hr'
        split at hr'
        · cases hr'
          have := (hi.dims e r0 g1).1
          rw [g2] at this
          cases this
          refine ⟨g5, fun f hf v hv => g3 v ?_⟩
          have : v ∈ r1.dom := by unfold EdgeRec.dom; rw [hf]; simpa using hv
          exact ((g7 v).1 this).2
        · exact hi.dims x r' hr'
      · cases h
  · split at h
    · cases h
    · next t ht =>
      split at h
      · next tn' _ h' =>
        cases h
        have hcons := hi.cons.addNode (by simp) h'
        obtain ⟨hn, -, legs, fr, E', f1, rfl, f3, f4⟩ := TN.addNode_ok h'
        cases f1
        dsimp only [Option.getD_some] at hn
        subst hn
        have hke : ∀ x, x ∈ E'.keys ↔ x ∈ tn.edges.keys := fun x => by
          rw [f3.keys]
          exact ⟨fun h => h.elim id (hk x), Or.inl⟩
        refine ⟨⟨hcons, fun x hx => hi.wires x ((hke x).1 hx), fun x r' hr' => ?_, fun m r' hr' => ?_⟩, fun x hx => (hke x).2 hx⟩
        · obtain ⟨r0, hr0⟩ := Dict.exists_get? ((hke x).1 (Dict.mem_keys_of_get? hr'))
          obtain ⟨r1, g1, g2, g3⟩ := f3.grow.ent x r0 hr0
          obtain rfl : r1 = r' := by
            have : some r1 = some r' := g1.symm.trans hr'
            exact Option.some.inj this
          obtain ⟨k1, k2⟩ := hi.dims x r0 hr0
          exact ⟨g3 2 k1, fun f hf => k2 f (g2 ▸ hf)⟩
        · dsimp only at hr'
          rw [Dict.get?_set] at hr'
          split at hr'
          · next hm =>
            cases hr'
            subst hm
            exact ⟨(_, r), hp, rfl, t, s, rfl, ht, hs, hl⟩
          · exact hi.nodes m r' hr'
      · cases h

theorem convLoop_net [HasShape τ] {I : OpsIface α τ} {ops : Circ α} : ∀ {gs : List (Int × Nat × Nm × OpRec α)} {s s' : Conv τ},
    (∀ g ∈ gs, g.2.2 ∈ ops) → NetInv I ops s.tn → (∀ e ∈ s.all, e ∈ s.tn.edges.keys) → Mentions (· ∈ s.all) s →
    convLoop I gs s = .ok s' → NetInv I ops s'.tn ∧ Mentions (· ∈ s'.tn.edges.keys) s'
  | [], s, s', _, hi, ha, hm, h => by rw [convLoop] at h; cases h; exact ⟨hi, hm.imp ha⟩
  | (t, idx, gate, r) :: gs, s, s', hg, hi, ha, hm, h => by
    rw [convLoop] at h
    split at h
    · cases h
    · next s1 h1 =>
      have hp : (gate, r) ∈ ops := hg (t, idx, gate, r) (by simp)
      unfold convGate at h1
      split at h1
      · cases h1
      · next sh hsh =>
        split at h1
        · cases h1
        · next outs c1 k1 =>
          obtain ⟨a1, a2, a3, a4, a5⟩ := convOuts_net hm k1
          split at h1
          · cases h1
          · next ins c2 k2 =>
            obtain ⟨b1, b2, b3, b4, b5⟩ := convIns_net a5 k2
            split at h1
            · cases h1
            · next c3 k3 =>
              have hw : ∀ e ∈ outs ++ ins, IsWire e := fun e he => by
                rcases List.mem_append.1 he with he | he
                · rcases a2 e he with h | h
                  · exact hi.wires e (ha e h)
                  · exact h
                · exact b2 e he
              obtain ⟨d1, d2, d3, d4, d5, d6⟩ := convEdges_net (I := I) (ops := ops) (by rw [b4, a4]; exact hi)
                (by rw [b4, a4, b3, a3]; exact ha) hw k3
              split at h1
              · cases h1
              · next tn' k4 =>
                cases h1
                obtain ⟨e1, e2⟩ := convPlace_net d1 hp hsh
                  (by rw [List.length_append, a1, b1, indicesWith_endsOut, indicesWith_startsIn])
                  (fun e he => d2 e (d3 e (Or.inr he))) k4
                refine convLoop_net (gs := gs) (s := { c3 with tn := tn' }) (fun g hg' => hg g (by simp [hg'])) e1 (fun e he => e2 e (d2 e he)) ?_ h
                have hall : ∀ e, (e ∈ s.all ∨ e ∈ outs) ∨ e ∈ ins → e ∈ c3.all := fun e he => d3 e (by
                  rw [b3, a3]
                  rcases he with (h | h) | h
                  · exact Or.inl h
                  · exact Or.inr (List.mem_append_left _ h)
                  · exact Or.inr (List.mem_append_right _ h))
                refine ⟨fun q e he => hall e (b5.1 q e ?_), fun q e he => hall e (b5.2.1 q e ?_), fun q e he => hall e (b5.2.2 q e ?_)⟩
                · rw [← d4]; exact he
                · rw [← d5]; exact he
                · rw [← d6]; exact he

theorem mem_sortedVals {d : Dict Int Nm} {e : Nm} (h : e ∈ sortedVals d) : ∃ q, d.get? q = some e := by
  unfold sortedVals at h
  obtain ⟨q, -, h⟩ := List.mem_filterMap.1 h
  exact ⟨q, h⟩

theorem netInv_nil {I : OpsIface α τ} {ops : Circ α} : NetInv I ops ({} : TN τ) :=
  ⟨TN.Consistent.empty, by simp [Dict.keys], by simp [Dict.get?], by simp [Dict.get?]⟩

/-- The network made of a circuit is well formed. -/
theorem convertPure_net [HasShape τ] {I : OpsIface α τ} {c : Circ α} {tn : TN τ} (h : c.convertPure I = .ok tn) : NetInv I c tn := by
  unfold convertPure at h
  split at h
  · cases h
  · cases h
  · split at h
    · cases h
    · next s hs =>
      cases h
      obtain ⟨h1, h2⟩ := convLoop_net (I := I) (ops := c) (s := {}) (fun g hg => (visit_perm c).mem_iff.1 (List.mem_reverse.2 (List.mem_map.2 ⟨g, hg, rfl⟩)))
        netInv_nil (by simp) ⟨by simp [Dict.get?], by simp [Dict.get?], by simp [Dict.get?]⟩ hs
      refine ⟨⟨h1.cons.nodes_nodup, h1.cons.edges_nodup, h1.cons.legs_exist, fun e he => ?_, h1.cons.adj_iff, h1.cons.adj_nodup⟩,
        h1.wires, h1.dims, h1.nodes⟩
      rcases List.mem_append.1 he with he | he
      · obtain ⟨q, hq⟩ := mem_sortedVals he
        exact h2.2.2 q e hq
      · obtain ⟨q, hq⟩ := mem_sortedVals he
        exact h2.2.1 q e hq

end Circ

end Verif
