import Verif.Props.ContractFull
import Verif.Props.Convert
/-!
# C49: `contract` of networks with loose fixed edges
-/

set_option linter.unusedSectionVars false

namespace Verif

variable {R : Type} [CommSemiring R] [Star R] {L : Type} [AddCommMonoid L]

/-- `contract` of a completed network gives the sum over all edges if no edge is fixed to two values and every edge on
no leg is open or fixed. -/
theorem contract_moored {f : TVal R → Option (Arr R)} {tn : TN (TVal R)} {B : Backend L R} (hB : B.Sound)
    (hC : CompletableFor TVal.tot f tn) (hz : tn.Sized) (hs : tn.FixShort) (hm : TVal.Moored True tn) (hW : B.Works tn) :
    ∃ r, tn.contractWith f B.memory B.finder B.srt B.engine B.ex = .ok r ∧ tn.shape? = some (r.shape.map some) ∧
      ∀ idx, InRange r.shape idx → r.get idx = tn.total TVal.tot idx := by
  obtain ⟨tn', hd, h2, _, h4, h5, h6, h7, h8, h9, _, h10⟩ := hC.complete
  obtain ⟨p, hp, hS, hsl⟩ := hW tn' hd
  have hcw : ∀ r, compileRun f B.memory B.srt B.engine B.ex tn' p = .ok r →
      tn.contractWith f B.memory B.finder B.srt B.engine B.ex = .ok r := by
    intro r hr
    unfold TN.contractWith
    rw [hd]
    dsimp only
    rw [hp]
    show tn.compileExec f B.memory B.srt B.engine B.ex p = .ok r
    unfold TN.compileExec
    rw [hd]
    exact hr
  by_cases hv : ∃ e er, tn.edges.get? e = some er ∧ e ∉ tn.openE ∧ er.fix = some []
  · obtain ⟨e, er, he, hno, hf⟩ := hv
    obtain ⟨r2, hr2, hf2⟩ := h10 e er he hno
    obtain ⟨r, h1, hsh, h0⟩ := compileRun_empty (p := p) (E := B.engine) (ex := B.ex) hB.srt h4 h2 hS.2 h8 hr2 (by rw [hf2, hf])
    refine ⟨r, hcw r h1, by rw [← h7, shape_dims h4, hsh], fun idx _ => ?_⟩
    rw [h0]
    refine (sumOver_empty (Dict.mem_keys_of_get? he) ?_ _ _).symm
    unfold TN.dom
    rw [he]
    simp [EdgeRec.dom, hf]
  · have hF : ClosedFixOK tn := by
      intro e r l he hno hl
      obtain ⟨d, h1, h2⟩ := hz e r he
      match l, hs e r l he hl, hl with
      | [], _, hl => exact absurd ⟨e, r, he, hno, hl⟩ hv
      | [v], _, hl => exact ⟨v, d, rfl, h1, h2 _ hl v (by simp)⟩
    obtain ⟨r, hr, hv1, hv2⟩ := compileRun_spec hB.engine hB.srt ⟨h2, h5, h4, h9 hF, hsl⟩ hS h8
    refine ⟨r, hcw r hr, by rw [← h7]; exact hv1, fun idx hi => ?_⟩
    rw [hv2 idx hi, h6]
    have ht := TN.value0_total (tn := tn) (val := TVal.tot) hC.cons.edges_nodup (fun e he => by
      rcases (TN.mem_usedEdges_factors hC.cons.nodes_nodup _).1 he with ⟨n, r, hr, h⟩ | h
      · exact hC.cons.legs_exist n r hr e h
      · exact hC.cons.open_exist e h) (fun e r hr hnu => by
      rw [TN.mem_usedEdges_factors hC.cons.nodes_nodup] at hnu
      rcases hm e (Dict.mem_keys_of_get? hr) with ⟨p, hp, h⟩ | ⟨r', l, h, h'⟩ | ⟨-, h⟩
      · exact absurd (Or.inl ⟨p.1, p.2, Dict.get?_of_mem hC.cons.nodes_nodup hp, h⟩) hnu
      · rw [hr] at h; cases h
        exact ⟨l, h', hs e r l hr h'⟩
      · exact absurd (Or.inr h) hnu) idx
    refine Eq.trans ?_ ht
    unfold TN.value0
    split
    · next hV =>
      obtain ⟨e, er, h1, h2⟩ := hV
      refine value_empty hC.cons h1 h2 ?_ idx
      by_cases ho : e ∈ tn.openE
      · exact Or.inr ho
      · exact absurd ⟨e, er, h1, ho, h2⟩ hv
    · rfl

namespace TVal

theorem mapM_tot {f : TVal R → Option (Arr R)} {sh : List Nat} : ∀ {ts : List (Nm × TVal R)},
    (∀ p ∈ ts, ∃ a : Arr R, f p.2 = some a ∧ a.shape = sh ∧ ∀ idx, InRange sh idx → a.get idx = p.2.tot idx) →
    ∃ as, (ts.mapM fun p => f p.2) = some as ∧ as.length = ts.length ∧ (∀ a ∈ as, a.shape = sh) ∧
      ∀ idx, InRange sh idx → (as.map fun a => a.get idx).sum = totSum ts idx
  | [], _ => ⟨[], rfl, rfl, by simp, fun idx _ => by rw [totSum]; rfl⟩
  | (n, t) :: ts, h => by
    obtain ⟨a, h1, h2, h3⟩ := h (n, t) List.mem_cons_self
    obtain ⟨as, g1, g2, g3, g4⟩ := mapM_tot (f := f) (ts := ts) fun p hp => h p (List.mem_cons_of_mem _ hp)
    refine ⟨a :: as, ?_, by simp [g2], ?_, fun idx hi => ?_⟩
    · rw [List.mapM_cons, g1]
      have h1 : f t = some a := h1
      rw [h1]; rfl
    · intro b hb
      rcases List.mem_cons.1 hb with rfl | hb
      · exact h2
      · exact g3 b hb
    · rw [totSum, ← g4 idx hi, List.map_cons, List.sum_cons, h3 idx hi]

/-- **C49** for nested objects: `contract` returns an array with the shape of the object and the sums over all edges of
its networks as entries, with loose fixed edges at any level. -/
theorem c49_nested {B0 : Backend L R} (h0 : B0.Sound) : ∀ (k : Nat) {B : Backend L R}, B.Sound → ∀ {t : TVal R},
    Evaluable B0 k B t → Contracts (contract B0 k B) tot t
  | k, B, hB, .ten none, h => by rw [Evaluable] at h; simp at h
  | k, B, hB, .ten (some a), _ => by
    intro sh hsh
    rw [shape_def, shape, Option.some.injEq] at hsh
    exact ⟨a, contract_ten B0 k B a, List.map_injective_iff.2 (Option.some_injective _) hsh, fun idx _ => by rw [tot]⟩
  | 0, _, _, .view _, h => by rw [Evaluable] at h; exact h.elim; simp
  | 0, _, _, .sum _, h => by rw [Evaluable] at h; exact h.elim; simp
  | 0, _, _, .net _ _ _ _ _, h => by rw [Evaluable] at h; exact h.elim; simp
  | k + 1, B, hB, .view t, h => by
    rw [Evaluable] at h
    intro sh hsh
    rw [shape_def, shape] at hsh
    obtain ⟨a, h1, h2, h3⟩ := c49_nested h0 k hB h sh hsh
    refine ⟨⟨a.shape, fun i => star (a.get i)⟩, by rw [contract, h1]; rfl, h2, fun idx hi => ?_⟩
    rw [tot]
    show star (a.get idx) = _
    rw [h3 idx hi]
  | k + 1, B, hB, .sum ts, h => by
    rw [Evaluable] at h
    obtain ⟨hne, hts, sh', hsh'⟩ := h
    intro sh hsh
    have he : sh = sh' := by
      rw [shape_def, shape] at hsh
      cases ts with
      | nil => exact absurd rfl hne
      | cons p ts =>
        obtain ⟨n, t⟩ := p
        simp only [termsShape, hsh' (n, t) List.mem_cons_self] at hsh
        rw [termsShape_common fun p hp => hsh' p (List.mem_cons_of_mem _ hp), Option.some.injEq] at hsh
        exact (List.map_injective_iff.2 (Option.some_injective _) hsh).symm
    subst he
    obtain ⟨as, g1, g2, g3, g4⟩ := mapM_tot (f := contract B0 k B) (ts := ts) fun p hp =>
      c49_nested h0 k hB (hts p hp) sh (hsh' p hp)
    cases as with
    | nil => cases ts with
      | nil => exact absurd rfl hne
      | cons p ts => simp at g2
    | cons a as =>
      have ha := g3 a List.mem_cons_self
      refine ⟨⟨a.shape, fun i => ((a :: as).map fun b => b.get i).sum⟩, ?_, ha, fun idx hi => ?_⟩
      · rw [contract, g1]
        show plusArrs (a :: as) = _
        rw [plusArrs, if_pos fun b hb => (g3 b (List.mem_cons_of_mem _ hb)).trans ha.symm]
      · rw [tot]; exact g4 idx hi
  | k + 1, B, hB, .net ns es adj op c, h => by
    rw [Evaluable] at h
    obtain ⟨h1, h2, h3, h4, h5, h6⟩ := h
    have hleaf : ∀ t, Leaf ⟨ns, es, adj, op, c⟩ t → Contracts (contract B0 k B0) tot t := fun t ht => c49_nested h0 k h0 (h5 t ht)
    obtain ⟨tn', g1, g2⟩ := expand_run hB.glue (k + 1) h1
    obtain ⟨hn, hW⟩ := h6 tn' g1
    have hC := g2.completable (f := contract B0 k B0) h4 hleaf (contract_ten B0 k B0) hn
    obtain ⟨r, e1, e2, e3⟩ := contract_moored hB hC g2.sized (g2.short h2) (g2.firm h2 True h3) hW
    intro sh hsh
    have hshape : tn'.shape? = TVal.shape (.net ns es adj op c) := by
      rw [shape]
      rw [TN.shape?_eq g2.cons.open_exist, g2.shape]
      exact (TN.shape?_eq h1.1.open_exist).symm
    rw [shape_def, ← hshape, e2, Option.some.injEq] at hsh
    refine ⟨r, ?_, List.map_injective_iff.2 (Option.some_injective _) hsh, fun idx hi => ?_⟩
    · rw [contract, g1]
      show (tn'.contractWith _ _ _ _ _ _).toOption = _
      rw [e1]; rfl
    · rw [e3 idx (List.map_injective_iff.2 (Option.some_injective _) hsh ▸ hi), g2.tot]
      exact (congrFun (tot_ofTN ⟨ns, es, adj, op, c⟩) idx).symm

end TVal

end Verif
