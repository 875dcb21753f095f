import Verif.Props.DensPure
import Verif.Lemmas.OperAdj
/-!
# The density representations carry a tensor at every node
-/

set_option linter.unusedSectionVars false

namespace Verif

namespace TVal

variable {R : Type} [CommSemiring R] [StarRing R]

theorem allTen_of_whole {tn : TN (TVal R)} (h : Whole (ofTN tn)) : Circ.AllTen Whole tn := by
  have h : WholeNodes tn.nodes := by
    have h' : Whole (.net tn.nodes tn.edges tn.adj tn.openE tn.idCount) := h
    rwa [Whole] at h'
  have : ∀ ns : List (Nm × NodeRec (TVal R)), WholeNodes ns → ∀ p ∈ ns, ∃ t, p.2.ten = some t ∧ Whole t := by
    intro ns
    induction ns with
    | nil => intro _ p hp; cases hp
    | cons p ns ih =>
      obtain ⟨n, legs, ten, fr⟩ := p
      intro h p hp
      cases ten with
      | none => rw [WholeNodes] at h; exact h.elim
      | some t =>
        rw [WholeNodes] at h
        rcases List.mem_cons.1 hp with rfl | hp
        · exact ⟨t, rfl, h.1⟩
        · exact ih h.2 p hp
  exact this _ h

theorem whole_hereditary : Hereditary (R := R) Whole where
  node := fun tn h n r t hr ht => by
    obtain ⟨t', h1, h2⟩ := allTen_of_whole h (n, r) (Dict.mem_of_get? hr)
    have h1 : r.ten = some t' := h1
    rw [ht] at h1; cases h1; exact h2
  count := fun tn c h => whole_net fun p hp => allTen_of_whole h p hp

/-- Flattening keeps a tensor at every node. -/
theorem Run.whole {tn tn' : TN (TVal R)} (h : Run tn [] tn') (hw : Whole (ofTN tn)) : Whole (ofTN tn') := by
  refine whole_net fun p hp => ?_
  have hg := Dict.get?_of_mem h.cons.nodes_nodup (show (p.1, p.2) ∈ tn'.nodes from hp)
  obtain ⟨t, h1, -⟩ := h.done p.1 p.2 hg (by simp)
  exact ⟨t, h1, h.leaf Whole whole_hereditary hw p.1 p.2 t hg h1⟩

theorem expandVal_whole {G : TN.Glue} (hG : G.Sound) {k : Nat} {tp tc te : TVal R} (hc : conj tp = .ok tc)
    (he : ∀ tn, tp = ofTN tn → Expandable k tn) (hw : Whole tp) (h : expandVal G k tc = .ok te) : Whole te := by
  have hwc := whole_conj _ _ hc hw
  by_cases hn : tc.IsNet
  · obtain ⟨tn0, rfl⟩ := conj_net hc hn
    obtain ⟨tn', rfl⟩ := hn
    obtain ⟨tn'', h1, h2⟩ := expand_run hG k (expandable_conj k (he tn0 rfl) hc)
    unfold ofTN expandVal at h
    dsimp only at h
    rw [show (⟨tn'.nodes, tn'.edges, tn'.adj, tn'.openE, tn'.idCount⟩ : TN (TVal R)) = tn' from rfl, h1] at h
    cases h
    exact h2.whole hwc
  · cases tc with
    | net ns es adj op c => exact absurd ⟨⟨ns, es, adj, op, c⟩, rfl⟩ hn
    | ten => cases h; exact hwc
    | sum => cases h; exact hwc
    | view => cases h; exact hwc

theorem densityPure_whole {G : TN.Glue} (hG : G.Sound) {k : Nat} {tp D : TVal R} (he : ∀ tn, tp = ofTN tn → Expandable k tn)
    (hw : Whole tp) (h : densityPure G k tp = .ok D) : Whole D := by
  unfold densityPure at h
  split at h
  · cases h
  · split at h
    · cases h
    · next h1 =>
      have w1 := addNode_whole h1 (allTen_empty _) hw
      split at h
      · cases h
      · next hc =>
        split at h
        · cases h
        · next hx =>
          split at h
          · cases h
          · next h2 =>
            cases h
            exact whole_net fun p hp => addNode_whole h2 w1 (expandVal_whole hG hc he hw hx) p hp

end TVal

namespace Circ

variable {R : Type} {α : Type}

theorem densIns_tn {t : Int} {idx : Nat} {qs : List Int} : ∀ {is : List Nat} {s s' : DConv (TVal R)} {ws : List Wire},
    densIns t idx qs is s = .ok (ws, s') → s'.tn = s.tn
  | [], s, s', ws, h => by rw [densIns] at h; cases h; rfl
  | i :: is, s, s', ws, h => by
    rw [densIns] at h
    split at h
    · cases h
    · split at h
      · split at h
        · cases h
        · next h1 => cases h; exact (densIns_tn (is := is) h1 :)
      · split at h
        · split at h
          · cases h
          · next h1 => cases h; exact (densIns_tn (is := is) h1 :)
        · cases h

theorem densOuts_tn {t : Int} {idx : Nat} {qs : List Int} : ∀ {is : List Nat} {s s' : DConv (TVal R)} {ws : List Wire},
    densOuts t idx qs is s = .ok (ws, s') → s'.tn = s.tn
  | [], s, s', ws, h => by rw [densOuts] at h; cases h; rfl
  | i :: is, s, s', ws, h => by
    rw [densOuts] at h
    split at h
    · cases h
    · split at h
      · cases h
      · next h1 => cases h; exact (densOuts_tn (is := is) h1 :)

theorem densLoop_whole {I : DensIface α (TVal R)} : ∀ {gs : List (Int × Nat × Nm × OpRec α)} {s s' : DConv (TVal R)},
    (∀ g ∈ gs, ∀ d, I.dens g.2.2.2.op = .ok d → TVal.Whole d) → AllTen TVal.Whole s.tn → densLoop I gs s = .ok s' →
    AllTen TVal.Whole s'.tn
  | [], s, s', _, hA, h => by rw [densLoop] at h; cases h; exact hA
  | (t, idx, gate, r) :: gs, s, s', hP, hA, h => by
    rw [densLoop] at h
    split at h
    · cases h
    · next s1 h1 =>
      refine densLoop_whole (gs := gs) (fun g hg => hP g (by simp [hg])) ?_ h
      unfold densGate at h1
      split at h1
      · cases h1
      · split at h1
        · cases h1
        · next k1 =>
          split at h1
          · cases h1
          · next k2 =>
            split at h1
            · cases h1
            · next k3 =>
              split at h1
              · cases h1
              · next k4 =>
                cases h1
                refine addNode_whole k4 ?_ (hP (t, idx, gate, r) (by simp) _ k3)
                rw [densOuts_tn k2, densIns_tn k1]
                exact hA

theorem convertDensity_whole {I : DensIface α (TVal R)} {c : Circ α} {tn : TN (TVal R)}
    (hP : ∀ p ∈ c, ∀ d, I.dens p.2.op = .ok d → TVal.Whole d) (h : c.convertDensity I = .ok tn) : TVal.Whole (.ofTN tn) := by
  unfold convertDensity at h
  split at h
  · cases h
  · cases h
  · split at h
    · cases h
    · next s hs =>
      cases h
      have := densLoop_whole (fun g hg d hd => ?_) (fun p hp => by simp at hp) hs
      · exact TVal.whole_net fun p hp => this p hp
      · refine hP (g.2.2.1, g.2.2.2) ?_ d hd
        unfold visitFwd byTime at hg
        obtain ⟨x, hx, hg⟩ := List.mem_flatMap.1 hg
        obtain ⟨t, -, rfl⟩ := List.mem_map.1 hx
        obtain ⟨y, hy, rfl⟩ := List.mem_map.1 hg
        have := List.fst_mem_of_mem_zipIdx hy
        exact (List.mem_filter.1 this).1

end Circ

namespace Oper

variable {R : Type} [CommSemiring R] [StarRing R] {ctr : TVal R → Except Err (Arr R)} {G : TN.Glue} {k : Nat}

/-- The data of the `ImmutableOperation`s inside the operation carries a tensor at every node. -/
def WholeData : Nat → Oper R → Prop
  | _ + 1, .imm data _ => TVal.Whole data
  | n + 1, .circ c => ∀ p ∈ c, WholeData n p.2.op
  | _, _ => True

theorem density_whole (hctr : Evaluates ctr) (hG : G.Sound) : ∀ (n : Nat) {op : Oper R} {d : TVal R}, DensFlat ctr k n op →
    WholeData n op → density ctr G k n op = .ok d → TVal.Whole d
  | 0, op, _, h, _, _ => by cases op <;> exact absurd h (by simp [DensFlat])
  | n + 1, .imm data s, d, h, hw, hd => by cases hd; rw [WholeData] at hw; exact hw
  | n + 1, .pure p q, d, h, _, hd => by
    rw [DensFlat] at h
    obtain ⟨s, t, hm, -⟩ := means_built hctr _ _ _ h.1
    have ht : tensorOf ctr (iface ctr n) (.pure p q) = .ok t := hm.tensor
    have hd : (match tensorOf ctr (iface ctr n) (.pure p q) with
      | .error e => Except.error e
      | .ok tp => TVal.densityPure G k tp) = Except.ok d := hd
    rw [ht] at hd
    exact TVal.densityPure_whole hG (fun tn e => h.2 tn (e ▸ hm.tensor)) hm.whole hd
  | n + 1, .ctrl data s sa ov, d, h, _, hd => by
    rw [DensFlat] at h
    obtain ⟨s', t, hm, -⟩ := means_built hctr _ _ _ h.1
    have ht : tensorOf ctr (iface ctr n) (.ctrl data s sa ov) = .ok t := hm.tensor
    have hd : (match tensorOf ctr (iface ctr n) (.ctrl data s sa ov) with
      | .error e => Except.error e
      | .ok tp => TVal.densityPure G k tp) = Except.ok d := hd
    rw [ht] at hd
    exact TVal.densityPure_whole hG (fun tn e => h.2 tn (e ▸ hm.tensor)) hm.whole hd
  | n + 1, .cctrl c s cond, d, h, _, hd => by
    rw [DensFlat] at h
    obtain ⟨s', t, hm, -⟩ := means_built hctr _ _ _ h.1
    have ht : tensorOf ctr (iface ctr n) (.cctrl c s cond) = .ok t := hm.tensor
    have hd : (match tensorOf ctr (iface ctr n) (.cctrl c s cond) with
      | .error e => Except.error e
      | .ok tp => TVal.densityPure G k tp) = Except.ok d := hd
    rw [ht] at hd
    exact TVal.densityPure_whole hG (fun tn e => h.2 tn (e ▸ hm.tensor)) hm.whole hd
  | n + 1, .circ c, d, h, hw, hd => by
    rw [DensFlat] at h
    rw [WholeData] at hw
    have hd : (Circ.convertDensity (diface ctr G k n) c).map TVal.ofTN = .ok d := hd
    cases hc : Circ.convertDensity (diface ctr G k n) c with
    | error e => rw [hc] at hd; cases hd
    | ok tn =>
      rw [hc] at hd
      cases hd
      exact Circ.convertDensity_whole (fun p hp d hd => density_whole hctr hG n (h.2.2 p hp).1 (hw p hp) hd) hc
  | n + 1, .sup _ _, _, h, _, _ => by simp [DensFlat] at h

/-- Contracting the density representation of an operation gives its entries on density matrices. -/
theorem density_contract (hctr : Evaluates ctr) (hG : G.Sound) {n K : Nat} {op : Oper R} (h : DensBuilt ctr k n op) (hw : WholeData n op)
    (hK : n + k ≤ K) : ∃ s d a, (iface ctr n).shape op = .ok s ∧ density ctr G K n op = .ok d ∧ ctr d = .ok a ∧
      a.shape = List.replicate (2 * ((outPlaces s).length + (inPlaces s).length)) 2 ∧
      ∀ idx, Bits idx (2 * ((outPlaces s).length + (inPlaces s).length)) → a.get idx = densMatrix ctr n op idx := by
  obtain ⟨s, d, h1, h2, h3, h4⟩ := c47_operation hctr hG h hK
  have hwd := density_whole hctr hG n (densFlat_of hctr n h hK) hw h2
  obtain ⟨a, k1, k2, k3⟩ := hctr d _ (h3.trans (by rw [replicate_some])) hwd
  exact ⟨s, d, a, h1, h2, k1, k2, fun idx hi => by rw [k3 idx hi.inRange, h4 idx hi]⟩

end Oper

end Verif
