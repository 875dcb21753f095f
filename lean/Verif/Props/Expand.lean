import Verif.Lemmas.ExpandLoop
import Verif.Props.History
import Mathlib.Data.Nat.Cast.Basic
/-!
# C17: expanding nested networks
-/

set_option linter.unusedSectionVars false

namespace Verif

namespace TVal

variable {R : Type} [CommSemiring R] [Star R]

theorem total_eq_value {τ : Type} {tn : TN τ} (hc : tn.Consistent) (val : τ → List Nat → R)
    (hu : ∀ e ∈ tn.edges.keys, (∃ p ∈ tn.nodes, e ∈ p.2.legs) ∨ e ∈ tn.openE) (idx : List Nat) :
    tn.total val idx = tn.value val idx := by
  unfold TN.total TN.value
  rw [einsum_eq_of_mem (l := tn.edges.keys) hc.edges_nodup]
  intro e
  rw [mem_usedEdges]
  constructor
  · intro he
    rcases hu e he with ⟨p, hp, h⟩ | h
    · exact Or.inl ⟨_, List.mem_map.2 ⟨p, hp, rfl⟩, h⟩
    · exact Or.inr h
  · rintro (⟨f, hf, h⟩ | h)
    · obtain ⟨p, hp, rfl⟩ := List.mem_map.1 hf
      exact hc.legs_exist p.1 p.2 (Dict.get?_of_mem hc.nodes_nodup hp) e h
    · exact hc.open_exist e h

theorem edgy_used {tn : TN (TVal R)} (h : Edgy True tn) :
    ∀ e ∈ tn.edges.keys, (∃ p ∈ tn.nodes, e ∈ p.2.legs) ∨ e ∈ tn.openE :=
  fun e he => (h e he).imp id And.right

theorem total_congr {τ : Type} {tn : TN τ} {v w : τ → List Nat → R}
    (h : ∀ p ∈ tn.nodes, ∀ t, p.2.ten = some t → v t = w t) (idx : List Nat) : tn.total v idx = tn.total w idx := by
  have : tn.factors v = tn.factors w := by
    unfold TN.factors
    refine List.map_congr_left fun p hp => ?_
    unfold NodeRec.factor
    cases ht : p.2.ten with
    | none => rfl
    | some t => simp only [h p hp t ht]
  unfold TN.total; rw [this]

mutual
/-- Without loose edges, summing over all edges gives the entries of the tensor. -/
theorem tot_eq_val : ∀ t : TVal R, Tight t → t.tot = t.val
  | .ten none, _ => by rw [tot, val]
  | .ten (some a), _ => by rw [tot, val]
  | .net ns es adj op c, h => by
    rw [Tight] at h
    obtain ⟨h1, h2, h3⟩ := h
    have hf := totFactors_eq_val ns h3
    have e1 : (TVal.net ns es adj op c).tot = (⟨ns, es, adj, op, c⟩ : TN (TVal R)).total tot := tot_ofTN ⟨ns, es, adj, op, c⟩
    have e2 : (TVal.net ns es adj op c).val = (⟨ns, es, adj, op, c⟩ : TN (TVal R)).value val := val_ofTN ⟨ns, es, adj, op, c⟩
    rw [e1, e2]
    funext idx
    rw [← total_eq_value h1 val (edgy_used h2)]
    have hf' : (⟨ns, es, adj, op, c⟩ : TN (TVal R)).factors tot = (⟨ns, es, adj, op, c⟩ : TN (TVal R)).factors val := by
      rw [totFactors_eq, valFactors_eq] at hf; exact hf
    unfold TN.total; rw [hf']
  | .sum ts, h => by
    rw [Tight] at h
    rw [tot, val]
    funext idx
    exact totSum_eq_val ts h idx
  | .view t, h => by
    rw [Tight] at h
    rw [tot, val, tot_eq_val t h]
theorem totFactors_eq_val : ∀ ns : List (Nm × NodeRec (TVal R)), TightNodes ns → totFactors ns = valFactors ns
  | [], _ => by rw [totFactors, valFactors]
  | (_, ⟨legs, none, f⟩) :: ns, h => by
    rw [TightNodes] at h
    rw [totFactors, valFactors, totFactors_eq_val ns h, totOpt, valOpt]
  | (_, ⟨legs, some t, f⟩) :: ns, h => by
    rw [TightNodes] at h
    rw [totFactors, valFactors, totFactors_eq_val ns h.2, totOpt, valOpt, tot_eq_val t h.1.1]
theorem totSum_eq_val : ∀ ts : List (Nm × TVal R), TightTerms ts → ∀ idx, totSum ts idx = valSum ts idx
  | [], _, idx => by rw [totSum, valSum]
  | (_, t) :: ts, h, idx => by
    rw [TightTerms] at h
    rw [totSum, valSum, totSum_eq_val ts h.2, tot_eq_val t h.1]
end

/-- C17, all edges summed: `expand` of a network nested at most `k` deep succeeds; the result has the shape of the
network, no node of it holds a network, and its sum over all edges is that of the nested network.  Loose edges and bare
wires are allowed here at all levels. -/
theorem c17_total {G : TN.Glue} (hG : G.Sound) {k : Nat} {tn : TN (TVal R)} (h : Expandable k tn) :
    ∃ tn', expand G k tn = (tn', .ok ()) ∧ tn'.Consistent ∧ tn'.shape? = tn.shape? ∧
      (∀ n r, tn'.nodes.get? n = some r → ∃ t, r.ten = some t ∧ ¬ t.IsNet) ∧
      ∀ idx, tn'.total tot idx = tn.total tot idx := by
  obtain ⟨tn', h1, h2⟩ := expand_run hG k h
  refine ⟨tn', h1, h2.cons, ?_, fun n r hr => ?_, h2.tot⟩
  · have hc : tn.Consistent := by
      cases k with
      | zero => exact h.elim
      | succ k => exact h.1
    rw [TN.shape?_eq h2.cons.open_exist, TN.shape?_eq hc.open_exist, h2.shape]
  · obtain ⟨t, a, b, _⟩ := h2.done n r hr (by simp)
    exact ⟨t, a, b⟩

/-- C17: `expand` represents the same tensor as the nested network, whatever the nesting depth, the inner and the outer
structure (repeated legs, repeated open edges, fixed edges, hyperedges).  Partial: no loose edges, no bare wires in the
inner networks (`c17_loop_violated`), no views at nodes (`c17_view_violated`), and names that prefixing cannot confuse
(`c17_clash_violated`). -/
theorem c17_expand_partial {G : TN.Glue} (hG : G.Sound) {k : Nat} {tn : TN (TVal R)} (h : Expandable k tn)
    (ht : Tight (ofTN tn)) :
    ∃ tn', expand G k tn = (tn', .ok ()) ∧ tn'.Consistent ∧ tn'.shape? = tn.shape? ∧
      (∀ n r, tn'.nodes.get? n = some r → ∃ t, r.ten = some t ∧ ¬ t.IsNet) ∧
      ∀ idx, tn'.value val idx = tn.value val idx := by
  obtain ⟨tn', a1, a2, a3, a4, a5⟩ := c17_total hG h
  obtain ⟨tn'', b1, b2⟩ := expand_run hG k h
  have : tn' = tn'' := by rw [a1] at b1; exact (Prod.mk.inj b1).1
  subst this
  refine ⟨tn', a1, a2, a3, a4, fun idx => ?_⟩
  have hw := b2.wired ht True ((tight_ofTN tn).1 ht).2.1
  rw [← total_eq_value a2 val (edgy_used hw)]
  have e1 : tn'.total val idx = tn'.total tot idx := total_congr (fun p hp t hpt =>
    (tot_eq_val t (b2.leaf Tight tight_hereditary ht p.1 p.2 t (Dict.get?_of_mem a2.nodes_nodup hp) hpt)).symm) idx
  rw [e1, a5]
  have e2 : tn.value val = (ofTN tn).val := (val_ofTN tn).symm
  rw [e2, ← tot_eq_val _ ht, tot_ofTN]

end TVal

/-! ## The hypotheses can be met -/

/-- A way to find components: join what a new link connects. -/
def joinLink (Cs : List (List Nm)) (p : Nm × Nm) : List (List Nm) :=
  (p.1 :: p.2 :: (Cs.filter fun C => p.1 ∈ C ∨ p.2 ∈ C).flatten).dedup :: Cs.filter fun C => ¬ (p.1 ∈ C ∨ p.2 ∈ C)

/-- Components and a member of a list. -/
def stdGlue : TN.Glue where
  comps := fun links => links.foldr (fun p Cs => joinLink Cs p) []
  last := fun l => l.head?

theorem mem_joinLink {Cs : List (List Nm)} {p : Nm × Nm} {D : List Nm} : D ∈ joinLink Cs p ↔
    D = (p.1 :: p.2 :: (Cs.filter fun C => p.1 ∈ C ∨ p.2 ∈ C).flatten).dedup ∨ (D ∈ Cs ∧ ¬ (p.1 ∈ D ∨ p.2 ∈ D)) := by
  simp [joinLink]

theorem mem_joined {Cs : List (List Nm)} {p : Nm × Nm} {x : Nm} :
    x ∈ (p.1 :: p.2 :: (Cs.filter fun C => p.1 ∈ C ∨ p.2 ∈ C).flatten).dedup ↔
      x = p.1 ∨ x = p.2 ∨ ∃ C ∈ Cs, (p.1 ∈ C ∨ p.2 ∈ C) ∧ x ∈ C := by
  simp [List.mem_dedup, and_assoc]

theorem stdGlue_disjoint (links : List (Nm × Nm)) : (stdGlue.comps links).Pairwise fun C D => ∀ x ∈ C, x ∉ D := by
  induction links with
  | nil => exact List.Pairwise.nil
  | cons p ls ih =>
    show (joinLink (stdGlue.comps ls) p).Pairwise _
    refine List.pairwise_cons.2 ⟨fun D hD x hx hxD => ?_, List.Pairwise.filter _ ih⟩
    obtain ⟨h1, h2⟩ := List.mem_filter.1 hD
    have h2 : ¬ (p.1 ∈ D ∨ p.2 ∈ D) := by simpa using h2
    rcases mem_joined.1 hx with rfl | rfl | ⟨C, hC, hm, hxC⟩
    · exact h2 (Or.inl hxD)
    · exact h2 (Or.inr hxD)
    · have hs : Std.Symm fun C D : List Nm => ∀ x ∈ C, x ∉ D := ⟨fun C D h x hx hx' => h x hx' hx⟩
      exact ih.forall hC h1 (fun hc => h2 (hc ▸ hm)) x hxC hxD

theorem stdGlue_sound : stdGlue.Sound where
  nodup := fun links => by
    induction links with
    | nil => intro C hC; simp [stdGlue] at hC
    | cons p ls ih =>
      intro C hC
      rcases mem_joinLink.1 (show C ∈ joinLink (stdGlue.comps ls) p from hC) with rfl | h
      · exact List.nodup_dedup _
      · exact ih C h.1
  nonempty := fun links => by
    induction links with
    | nil => intro C hC; simp [stdGlue] at hC
    | cons p ls ih =>
      intro C hC
      rcases mem_joinLink.1 (show C ∈ joinLink (stdGlue.comps ls) p from hC) with rfl | h
      · exact List.ne_nil_of_mem (mem_joined.2 (Or.inl rfl))
      · exact ih C h.1
  disjoint := stdGlue_disjoint
  cover := fun links => by
    induction links with
    | nil => intro q hq; simp at hq
    | cons p ls ih =>
      intro q hq
      show ∃ C ∈ joinLink (stdGlue.comps ls) p, _
      rcases List.mem_cons.1 hq with rfl | hq
      · exact ⟨_, mem_joinLink.2 (Or.inl rfl), mem_joined.2 (Or.inl rfl), mem_joined.2 (Or.inr (Or.inl rfl))⟩
      · obtain ⟨C, hC, h1, h2⟩ := ih q hq
        by_cases hm : p.1 ∈ C ∨ p.2 ∈ C
        · exact ⟨_, mem_joinLink.2 (Or.inl rfl), mem_joined.2 (Or.inr (Or.inr ⟨C, hC, hm, h1⟩)),
            mem_joined.2 (Or.inr (Or.inr ⟨C, hC, hm, h2⟩))⟩
        · exact ⟨C, mem_joinLink.2 (Or.inr ⟨hC, hm⟩), h1, h2⟩
  ends := fun links => by
    induction links with
    | nil => intro C hC; simp [stdGlue] at hC
    | cons p ls ih =>
      intro C hC x hx
      rcases mem_joinLink.1 (show C ∈ joinLink (stdGlue.comps ls) p from hC) with rfl | h
      · rcases mem_joined.1 hx with h | h | ⟨D, hD, _, hxD⟩
        · exact ⟨p, List.mem_cons_self, Or.inl h⟩
        · exact ⟨p, List.mem_cons_self, Or.inr h⟩
        · obtain ⟨q, hq, h⟩ := ih D hD x hxD
          exact ⟨q, List.mem_cons_of_mem _ hq, h⟩
      · obtain ⟨q, hq, h⟩ := ih C h.1 x hx
        exact ⟨q, List.mem_cons_of_mem _ hq, h⟩
  connected := fun links => by
    induction links with
    | nil => intro C hC; simp [stdGlue] at hC
    | cons p ls ih =>
      have mono : ∀ {x y}, Relation.EqvGen (fun a b => (a, b) ∈ ls) x y → Relation.EqvGen (fun a b => (a, b) ∈ p :: ls) x y :=
        fun h => h.mono fun a b hab => List.mem_cons_of_mem _ hab
      have hp : Relation.EqvGen (fun a b => (a, b) ∈ p :: ls) p.1 p.2 := .rel _ _ List.mem_cons_self
      intro C hC
      rcases mem_joinLink.1 (show C ∈ joinLink (stdGlue.comps ls) p from hC) with rfl | h
      · have key : ∀ x ∈ (p.1 :: p.2 :: ((stdGlue.comps ls).filter fun C => p.1 ∈ C ∨ p.2 ∈ C).flatten).dedup,
            Relation.EqvGen (fun a b => (a, b) ∈ p :: ls) p.1 x := by
          intro x hx
          rcases mem_joined.1 hx with rfl | rfl | ⟨D, hD, hm, hxD⟩
          · exact .refl _
          · exact hp
          · rcases hm with hm | hm
            · exact mono (ih D hD _ hm _ hxD)
            · exact hp.trans _ _ _ (mono (ih D hD _ hm _ hxD))
        intro x hx y hy
        exact ((key x hx).symm _ _).trans _ _ _ (key y hy)
      · intro x hx y hy
        exact mono (ih C h.1 x hx y hy)
  last := fun l hl => by
    cases l with
    | nil => exact absurd rfl hl
    | cons a l => exact ⟨a, List.mem_cons_self, rfl⟩

/-- A product of two matrices, as a network: rows on edge 0, columns on edge 2. -/
def expandInner : TN (TVal Nat) where
  nodes := [(.int 0, ⟨[.int 0, .int 1], some (arrVal [2, 2] fun i => i.headD 0 + 2 * i.getLastD 0), false⟩),
    (.int 1, ⟨[.int 1, .int 2], some (arrVal [2, 2] fun i => 3 * i.headD 0 + i.getLastD 0 + 1), false⟩)]
  edges := [(.int 0, { dim := some 2 }), (.int 1, { dim := some 2 }), (.int 2, { dim := some 2 })]
  adj := [(.int 0, .int 0), (.int 0, .int 1), (.int 1, .int 1), (.int 1, .int 2)]
  openE := [.int 0, .int 2]

/-- The product at a node, its columns joined to a vector; one edge of the outer network has the same name as one of
the inner network. -/
def expandOuter : TN (TVal Nat) where
  nodes := [(.str "N", ⟨[.int 0, .int 8], some (TVal.ofTN expandInner), false⟩),
    (.int 6, ⟨[.int 8], some (arrVal [2] fun i => i.headD 0 + 5), false⟩)]
  edges := [(.int 0, { dim := some 2 }), (.int 8, { dim := some 2 })]
  adj := [(.str "N", .int 0), (.str "N", .int 8), (.int 6, .int 8)]
  openE := [.int 0]

theorem expandInner_consistent : expandInner.Consistent :=
  c11_consistent_partial (ops := [.addNode (some (.int 0)) (.int 0) (some [.int 0, .int 1])
      (arrVal [2, 2] fun i => i.headD 0 + 2 * i.getLastD 0) false,
    .addNode (some (.int 1)) (.int 1) (some [.int 1, .int 2]) (arrVal [2, 2] fun i => 3 * i.headD 0 + i.getLastD 0 + 1) false,
    .openEdge (.int 0) none, .openEdge (.int 2) none]) ⟨trivial, trivial, trivial, trivial, trivial⟩ rfl

theorem expandOuter_consistent : expandOuter.Consistent :=
  c11_consistent_partial (ops := [.addNode (some (.str "N")) (.int 0) (some [.int 0, .int 8]) (TVal.ofTN expandInner) false,
    .addNode (some (.int 6)) (.int 1) (some [.int 8]) (arrVal [2] fun i => i.headD 0 + 5) false,
    .openEdge (.int 0) none]) ⟨trivial, trivial, trivial, trivial⟩ rfl

theorem expandInner_expandable : TVal.Expandable 1 expandInner := by
  have hk : expandInner.nodes.keys = [.int 0, .int 1] := rfl
  have hke : expandInner.edges.keys = [.int 0, .int 1, .int 2] := rfl
  have hno : ∀ n r t, expandInner.nodes.get? n = some r → r.ten = some t → ¬ t.IsNet ∧ ∀ u, t ≠ .view u := by
    intro n r t hr ht
    have := Dict.mem_of_get? hr
    simp only [expandInner, List.mem_cons, List.not_mem_nil, or_false, Prod.mk.injEq] at this
    rcases this with ⟨rfl, rfl⟩ | ⟨rfl, rfl⟩ <;>
      (cases ht; exact ⟨fun ⟨s, hs⟩ => (by cases hs), fun u hu => (by cases hu)⟩)
  refine ⟨expandInner_consistent, ?_, ⟨?_, ?_, ?_, ?_, ?_, ?_⟩, ?_⟩
  · intro e r hr
    have := Dict.mem_of_get? hr
    simp only [expandInner, List.mem_cons, List.not_mem_nil, or_false, Prod.mk.injEq] at this
    rcases this with ⟨rfl, rfl⟩ | ⟨rfl, rfl⟩ | ⟨rfl, rfl⟩ <;> exact ⟨2, rfl, by simp⟩
  · rw [hk]; decide
  · rw [hke]; decide
  · rw [hk]; decide
  · rw [hke]; decide
  · exact fun n r t hr ht hi => absurd hi (hno n r t hr ht).1
  · exact fun n r t hr ht hi => absurd hi (hno n r t hr ht).1
  · intro n r hr
    have hm := Dict.mem_of_get? hr
    simp only [expandInner, List.mem_cons, List.not_mem_nil, or_false, Prod.mk.injEq] at hm
    have : ∃ t, r.ten = some t := by
      rcases hm with ⟨_, rfl⟩ | ⟨_, rfl⟩ <;> exact ⟨_, rfl⟩
    obtain ⟨t, ht⟩ := this
    obtain ⟨h1, h2⟩ := hno n r t hr ht
    exact ⟨t, ht, h2, fun s hs => absurd ⟨s, hs⟩ h1⟩

theorem expandOuter_expandable : TVal.Expandable 2 expandOuter := by
  have hk : expandOuter.nodes.keys = [.str "N", .int 6] := rfl
  have hke : expandOuter.edges.keys = [.int 0, .int 8] := rfl
  have hnode : ∀ n r, expandOuter.nodes.get? n = some r → (n = .str "N" ∧ r = ⟨[.int 0, .int 8], some (TVal.ofTN expandInner), false⟩) ∨
      (n = .int 6 ∧ r = ⟨[.int 8], some (arrVal [2] fun i => i.headD 0 + 5), false⟩) := by
    intro n r hr
    have hm := Dict.mem_of_get? hr
    simpa only [expandOuter, List.mem_cons, List.not_mem_nil, or_false, Prod.mk.injEq] using hm
  have hu : ∀ x : Int, ¬ Nm.Under (.str "N") (.int x) := by
    rintro x ⟨y, _, hy⟩
    simp [Nm.tup] at hy
  have hN : ¬ Nm.Under (.str "N") (.str "N") := by
    rintro ⟨y, hy0, hy⟩
    simp [Nm.tup] at hy
    exact hy0 hy
  refine ⟨expandOuter_consistent, ?_, ⟨?_, ?_, ?_, ?_, ?_, ?_⟩, ?_⟩
  · intro e r hr
    have := Dict.mem_of_get? hr
    simp only [expandOuter, List.mem_cons, List.not_mem_nil, or_false, Prod.mk.injEq] at this
    rcases this with ⟨rfl, rfl⟩ | ⟨rfl, rfl⟩ <;> exact ⟨2, rfl, by simp⟩
  · rw [hk]; decide
  · rw [hke]; decide
  · rw [hk]; decide
  · rw [hke]; decide
  · intro n r t hr ht hi n' hn'
    rw [hk] at hn'
    rcases hnode n r hr with ⟨rfl, rfl⟩ | ⟨rfl, rfl⟩
    · simp only [List.mem_cons, List.not_mem_nil, or_false] at hn'
      rcases hn' with rfl | rfl
      · exact hN
      · exact hu _
    · cases ht; obtain ⟨s, hs⟩ := hi; cases hs
  · intro n r t hr ht hi e he
    rw [hke] at he
    rcases hnode n r hr with ⟨rfl, rfl⟩ | ⟨rfl, rfl⟩
    · simp only [List.mem_cons, List.not_mem_nil, or_false] at he
      rcases he with rfl | rfl <;> exact hu _
    · cases ht; obtain ⟨s, hs⟩ := hi; cases hs
  · intro n r hr
    rcases hnode n r hr with ⟨rfl, rfl⟩ | ⟨rfl, rfl⟩
    · refine ⟨_, rfl, fun u hu => (by cases hu), fun s hs => ?_⟩
      have : s = expandInner := by cases s; cases hs; rfl
      subst this
      exact ⟨expandInner_expandable, rfl⟩
    · exact ⟨_, rfl, fun u hu => (by cases hu), fun s hs => by cases hs⟩

theorem expandOuter_tight : TVal.Tight (TVal.ofTN expandOuter) := by
  have hin : TVal.Edgy False expandInner := by unfold TVal.Edgy; decide
  refine (TVal.tight_ofTN _).2 ⟨expandOuter_consistent, by unfold TVal.Edgy; decide, fun p hp t ht => ?_⟩
  simp only [expandOuter, List.mem_cons, List.not_mem_nil, or_false] at hp
  rcases hp with rfl | rfl
  · cases ht
    refine ⟨(TVal.tight_ofTN _).2 ⟨expandInner_consistent, fun e he => (hin e he).imp id fun h => h.1.elim, fun q hq u hu => ?_⟩, hin⟩
    simp only [expandInner, List.mem_cons, List.not_mem_nil, or_false] at hq
    rcases hq with rfl | rfl <;> (cases hu; exact ⟨by simp [arrVal, TVal.Tight], by simp [arrVal, TVal.NoWire]⟩)
  · cases ht
    exact ⟨by simp [arrVal, TVal.Tight], by simp [arrVal, TVal.NoWire]⟩

/-- The hypotheses of `c17_expand_partial` are met by a network holding a product of matrices, and the value is the
expected one. -/
example : stdGlue.Sound ∧ TVal.Expandable 2 expandOuter ∧ TVal.Tight (TVal.ofTN expandOuter) ∧
    expandOuter.value TVal.val [1] = 167 ∧
    ∃ tn', TVal.expand stdGlue 2 expandOuter = (tn', .ok ()) ∧ tn'.nodes.keys.length = 3 :=
  ⟨stdGlue_sound, expandOuter_expandable, expandOuter_tight, by decide +kernel, _, rfl, by decide +kernel⟩

/-! ## Where C17 fails -/

/-- C17 fails if a node holds a view (such as the conjugate of a tensor given by a view function): `expand` raises
a `TypeError` in any network, whatever the rest of it. -/
theorem c17_view_violated {R : Type} (G : TN.Glue) (k : Nat) (tn : TN (TVal R)) {n : Nm} {r : NodeRec (TVal R)} {u : TVal R}
    (hr : tn.nodes.get? n = some r) (ht : r.ten = some (.view u)) (hf : tn.nodes.keys.head? = some n) :
    TVal.expand G (k + 1) tn = (tn, .error .type) := by
  unfold TVal.expand
  cases hk : tn.nodes.keys with
  | nil => rw [hk] at hf; cases hf
  | cons x xs =>
    rw [hk] at hf
    cases hf
    unfold forLoop
    have : TVal.expandNode G (TVal.expand G k) tn n = (tn, .error .type) := by
      unfold TVal.expandNode; simp only [hr, ht]
    rw [this]

/-- A bare wire as inner network, both of its ends on one edge of the outer network. -/
def loopNet : TN (TVal Nat) where
  nodes := [(.int 0, ⟨[.int 1, .int 1], some (.net [] [(.int 5, { dim := some 2 })] [] [.int 5, .int 5] 0), false⟩)]
  edges := [(.int 1, { dim := some 2 })]
  adj := [(.int 0, .int 1)]
  openE := []

/-- C17 fails for a closed loop of bare wires: the trace of the identity is 2, after `expand` the only edge is loose
and the value is 1.  (The sum over all edges is preserved.) -/
theorem c17_loop_violated : loopNet.value TVal.val [] = 2 ∧ ∃ tn', TVal.expand stdGlue 2 loopNet = (tn', .ok ()) ∧
    tn'.value TVal.val [] = 1 ∧ tn'.total TVal.tot [] = 2 :=
  ⟨by decide +kernel, _, rfl, by decide +kernel, by decide +kernel⟩

/-- A node 0 holding the product of two vectors joined by edge 9, and a vector on an edge `(0, 9)`. -/
def clashNet : TN (TVal Nat) where
  nodes := [(.int 0, ⟨[], some (.net [(.int 1, ⟨[.int 9], some (arrVal [2] fun _ => 1), false⟩),
      (.int 2, ⟨[.int 9], some (arrVal [2] fun _ => 1), false⟩)] [(.int 9, { dim := some 2 })]
      [(.int 1, .int 9), (.int 2, .int 9)] [] 0), false⟩),
    (.int 3, ⟨[.pair (.int 0) (.int 9)], some (arrVal [2] fun i => i.headD 0), false⟩)]
  edges := [(.pair (.int 0) (.int 9), { dim := some 2 })]
  adj := [(.int 3, .pair (.int 0) (.int 9))]
  openE := []

/-- C17 fails if a prefixed name is in use: edge 9 of the network at node 0 becomes `(0, 9)`, which is an edge of the
outer network already; the two are silently identified. -/
theorem c17_clash_violated : clashNet.value TVal.val [] = 2 ∧ ∃ tn', TVal.expand stdGlue 2 clashNet = (tn', .ok ()) ∧
    tn'.value TVal.val [] = 1 :=
  ⟨by decide +kernel, _, rfl, by decide +kernel⟩

/-- `add_attribute_to_names` does not tell `x` from the 1-tuple `(x,)`: two edges become one. -/
theorem c17_tuple_violated (a x : Nm) (h : (∃ i, x = .int i) ∨ ∃ s, x = .str s) : a.comb x = a.comb (.cons x .nil) := by
  unfold Nm.comb
  rcases h with ⟨i, rfl⟩ | ⟨s, rfl⟩ <;> rfl

end Verif
