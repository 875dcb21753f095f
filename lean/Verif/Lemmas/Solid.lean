import Verif.Lemmas.Flat
import Verif.Lemmas.ConvertMoor
import Verif.Props.ContractTotal
/-!
# Helper lemmas: the tensors of operations can be contracted
-/

set_option linter.unusedSectionVars false

namespace Verif

namespace TVal

variable {R : Type} [CommSemiring R] [StarRing R] {L : Type} [AddCommMonoid L]

/-- The edges of a network that are not open are called by tuples. -/
def Tucked (t : TVal R) : Prop := ∀ s, t = ofTN s → ∀ x ∈ s.edges.keys, x ∉ s.openE → x.tup.length ≠ 1

/-- Names of nodes and edges that, used as prefixes, cannot give a name that `complete_delta` or the default order
introduces. -/
structure TopNames (tn : TN (TVal R)) : Prop where
  heads : ∀ n ∈ tn.nodes.keys, n.tup.head? ≠ some (.str "*") ∧ n.tup.head? ≠ some (.str "#")
  edges : ∀ x ∈ tn.edges.keys, x.tup.length ≠ 2
  nodes : ∀ n r t, tn.nodes.get? n = some r → r.ten = some t → t.IsNet → ∀ e, n.tup = [e] →
    (e.tup.length ≤ 1 ∧ e ∉ tn.edges.keys) ∨ Tucked t

theorem Run.head {tn0 tn : TN (TVal R)} (h : Run tn0 [] tn) (hN : ∀ n ∈ tn0.nodes.keys, n.tup ≠ []) {n : Nm} (hn : n ∈ tn.nodes.keys) :
    ∃ n0 ∈ tn0.nodes.keys, n.tup.head? = n0.tup.head? := by
  rcases h.node_names n hn with h | ⟨n0, ⟨r, t, h1, -⟩, -, y, -, h3⟩
  · exact ⟨n, h, rfl⟩
  · have hk := Dict.mem_keys_of_get? h1
    refine ⟨n0, hk, ?_⟩
    rw [h3]
    cases hc : n0.tup with
    | nil => exact absurd hc (hN n0 hk)
    | cons a l => rfl

theorem Run.clear {tn0 tn : TN (TVal R)} (h : Run tn0 [] tn) (hN : ∀ n ∈ tn0.nodes.keys, n.tup ≠ []) (ht : TopNames tn0) :
    ClearNames tn ∧ .str "#" ∉ tn.nodes.keys ∧ ∀ j, Nm.pair (.str "#") (.int j) ∉ tn.nodes.keys := by
  refine ⟨⟨fun e he k _ hc => ?_, fun e he k hc => ?_, fun hc => ?_⟩, fun hc => ?_, fun j hc => ?_⟩
  · have htup : (deltaEdge e k).tup = [e, .int k] := rfl
    rcases h.edge_deep _ hc with hx | ⟨n0, r, s, h1, h1b, y, hy, h3, h4⟩
    · exact ht.edges _ hx (by rw [htup]; rfl)
    · have hk := Dict.mem_keys_of_get? h1
      rw [htup] at h3
      cases hn : n0.tup with
      | nil => exact hN n0 hk hn
      | cons a l =>
        rw [hn] at h3
        have hl : l = [] := by
          have := congrArg List.length h3
          have hy' : 0 < y.length := List.length_pos_iff.2 hy
          simp at this
          exact List.length_eq_zero_iff.1 (by omega)
        subst hl
        have hae : e = a := by simpa using congrArg List.head? h3
        subst hae
        have hy1 : y.length = 1 := by
          have := congrArg List.length h3
          simp at this
          omega
        rcases ht.nodes n0 r _ h1 h1b ⟨s, rfl⟩ e hn with ⟨q1, q2⟩ | q
        · rcases h.edge_names e (h.cons.open_exist e he) with hx | ⟨n1, ⟨r', t', h1', -⟩, -, y', hy', h3'⟩
          · exact q2 hx
          · rw [h3'] at q1
            have hy2 : 0 < y'.length := List.length_pos_iff.2 hy'
            have := List.length_pos_iff.2 (hN n1 (Dict.mem_keys_of_get? h1'))
            simp at q1
            omega
        · obtain ⟨x, g1, g2, g3⟩ := h4 hy1
          exact q s rfl x g1 g2 (by rw [g3, hy1])
  · obtain ⟨n0, h1, h2⟩ := h.head hN hc
    exact (ht.heads n0 h1).1 (by rw [← h2]; rfl)
  · obtain ⟨n0, h1, h2⟩ := h.head hN hc
    exact (ht.heads n0 h1).1 (by rw [← h2]; rfl)
  · obtain ⟨n0, h1, h2⟩ := h.head hN hc
    exact (ht.heads n0 h1).2 (by rw [← h2]; rfl)
  · obtain ⟨n0, h1, h2⟩ := h.head hN hc
    exact (ht.heads n0 h1).2 (by rw [← h2]; rfl)

/-- The order finder works for all networks that can be completed and have no node called `'#'` or `('#', i)`. -/
def _root_.Verif.Backend.Reliable (B : Backend L R) : Prop :=
  ∀ (tn : TN (TVal R)) (f : TVal R → Option (Arr R)), CompletableFor tot f tn → .str "#" ∉ tn.nodes.keys →
    (∀ j, Nm.pair (.str "#") (.int j) ∉ tn.nodes.keys) → B.Works tn

/-- The default order finder is reliable if the memory suffices. -/
theorem _root_.Verif.Backend.reliable_default {B : Backend L R} (hB : B.Sound) {width : TN (TVal R) → List OrderStep → Nat}
    (hfd : B.finder = defaultFinder B.srt width) (hw : ∀ t o, width t o * 3 * 2 ^ 4 ≤ B.memory * 2 ^ 30) : B.Reliable :=
  fun _ _ hC h1 h2 => default_works hB hfd hw hC h1 h2

/-- Arrays, sums, and networks of these nested at most `d` deep, with harmless names and edges. -/
inductive Solid : Nat → TVal R → Prop
  | ten {d : Nat} (a : Arr R) : Solid d (.ten (some a))
  | sum {d : Nat} {ts : List (Nm × TVal R)} (sh : List Nat) : ts ≠ [] → (∀ p ∈ ts, Solid d p.2) →
      (∀ p ∈ ts, p.2.shape = some (sh.map some)) → Solid (d + 1) (.sum ts)
  | net {d : Nat} {tn : TN (TVal R)} {t : TVal R} : t = ofTN tn → Expandable (d + 1) tn → tn.FixShort → Moored False tn → TopNames tn →
      (∀ n r, tn.nodes.get? n = some r → ∃ t, r.ten = some t ∧ t.shape = some (r.legs.map tn.edim)) →
      (∀ n r t, tn.nodes.get? n = some r → r.ten = some t → Solid d t) → Solid (d + 1) t

theorem Solid.mono {d : Nat} {t : TVal R} (hs : Solid d t) : ∀ {d' : Nat}, d ≤ d' → Solid d' t := by
  induction hs with
  | ten a => exact fun _ => .ten a
  | sum sh h1 _ h3 ih =>
    intro d' h
    obtain ⟨e, rfl⟩ : ∃ e, d' = e + 1 := ⟨d' - 1, by omega⟩
    exact .sum sh h1 (fun p hp => ih p hp (by omega)) h3
  | net h1 h2 h3 h4 h5 h6 _ ih =>
    intro d' h
    obtain ⟨e, rfl⟩ : ∃ e, d' = e + 1 := ⟨d' - 1, by omega⟩
    exact .net h1 (expandable_mono h h2) h3 h4 h5 h6 fun n r t h1 h2 => ih n r t h1 h2 (by omega)

theorem Solid.flat {d : Nat} {t : TVal R} (hs : Solid d t) : Flat d t := by
  cases hs with
  | ten a => exact flat_ten _ _
  | sum sh h1 h2 h3 => exact flat_sum _ _
  | net h1 h2 => subst h1; exact flat_ofTN h2

theorem Solid.moored {d : Nat} {t : TVal R} (hs : Solid d t) : MooredNet t := by
  cases hs with
  | ten a => simp [MooredNet]
  | sum => simp [MooredNet]
  | net h1 h2 h3 h4 => subst h1; exact h4

theorem Solid.firm {d : Nat} {t : TVal R} (hs : Solid d t) : Firm t := by
  induction hs with
  | ten a => simp [Firm]
  | sum => simp [Firm]
  | net h1 h2 h3 h4 h5 h6 h7 ih =>
    subst h1
    refine (firm_ofTN _).2 ⟨h3, fun p hp t ht => ?_⟩
    have hg := Dict.get?_of_mem h2.1.nodes_nodup hp
    exact ⟨ih _ _ t hg ht, (h7 _ _ t hg ht).moored⟩

theorem Solid.fit {d : Nat} {t : TVal R} (hs : Solid d t) : Fit t := by
  induction hs with
  | ten a => simp [Fit]
  | sum => simp [Fit]
  | net h1 h2 h3 h4 h5 h6 h7 ih =>
    subst h1
    refine (fit_ofTN _).2 fun p hp => ?_
    have hg := Dict.get?_of_mem h2.1.nodes_nodup hp
    obtain ⟨t, k1, k2⟩ := h6 _ _ hg
    exact ⟨t, k1, k2, ih _ _ t hg k1⟩

theorem Solid.leaf {d : Nat} {t : TVal R} (hs : Solid d t) : ∀ {s : TN (TVal R)}, t = ofTN s → ∀ {u : TVal R}, Leaf s u → Solid (d - 1) u := by
  induction hs with
  | ten a => intro s he; simp [ofTN] at he
  | sum => intro s he; simp [ofTN] at he
  | @net d tn t h1 h2 h3 h4 h5 h6 h7 ih =>
    intro s he u hu
    have := ofTN_inj (he.symm.trans h1)
    subst this
    cases hu with
    | here k1 k2 k3 => exact h7 _ _ _ k1 k2
    | deep k1 k2 k3 => exact (ih _ _ _ k1 k2 rfl k3).mono (by omega)

/-- A network of solid tensors. -/
theorem solid_net {d : Nat} {tn : TN (TVal R)} (hx : Expandable (d + 1) tn) (hs : tn.FixShort) (hm : Moored False tn)
    (hn : ∀ n r, tn.nodes.get? n = some r → ∃ t, r.ten = some t ∧ t.shape = some (r.legs.map tn.edim) ∧ Solid d t)
    (ht : TopNames tn) : Solid (d + 1) (ofTN tn) := by
  refine .net rfl hx hs hm ht (fun n r hr => ?_) fun n r t hr ht => ?_
  · obtain ⟨t, h1, h2, -⟩ := hn n r hr
    exact ⟨t, h1, h2⟩
  · obtain ⟨t', h1, -, h2⟩ := hn n r hr
    rw [ht] at h1; cases h1
    exact h2

theorem evaluable_arr {B0 B : Backend L R} {k : Nat} (a : Arr R) : Evaluable B0 k B (.ten (some a)) := by rw [Evaluable]; rfl

/-- Solid tensors can be contracted. -/
theorem Solid.evaluable {B0 : Backend L R} (h0 : B0.Sound) (hR0 : B0.Reliable) : ∀ {k d : Nat} {t : TVal R} {B : Backend L R}, Solid d t →
    B.Sound → B.Reliable → d ≤ k → Evaluable B0 k B t
  | k, _, _, _, .ten a, _, _, _ => evaluable_arr a
  | 0, _, _, _, .sum .., _, _, h => by omega
  | 0, _, _, _, .net .., _, _, h => by omega
  | k + 1, _, _, _, .sum sh h1 h2 h3, hB, hR, hk => by
    rw [Evaluable]
    exact ⟨h1, fun p hp => (h2 p hp).evaluable h0 hR0 hB hR (by omega), sh, h3⟩
  | k + 1, d + 1, t, B, .net (tn := tn) h1 h2 h3 h4 h5 h6 h7, hB, hR, hk => by
    have hS : Solid (d + 1) (ofTN tn) := .net rfl h2 h3 h4 h5 h6 h7
    subst h1
    have hx := expandable_mono hk h2
    have hleaf : ∀ u, Leaf tn u → Evaluable B0 k B0 u := fun u hu => (hS.leaf rfl hu).evaluable h0 hR0 h0 hR0 (by omega)
    have hm : Moored True tn := fun e he => (h4 e he).imp id (Or.imp id fun h => h.1.elim)
    show Evaluable B0 (k + 1) B (.net tn.nodes tn.edges tn.adj tn.openE tn.idCount)
    rw [Evaluable]
    refine ⟨hx, hS.firm, hm, hS.fit, hleaf, fun tn' he => ?_⟩
    obtain ⟨tn1, b1, b2⟩ := expand_run hB.glue (k + 1) hx
    have e1 : tn1 = tn' := by
      have := b1.symm.trans he; exact (Prod.mk.inj this).1
    subst e1
    obtain ⟨c1, c2, c3⟩ := b2.clear hx.2.2.1.nodes_ne h5
    exact ⟨c1, hR _ _ (b2.completable (f := contract B0 k B0) hS.fit (fun t ht => c49_nested h0 k h0 (hleaf t ht))
      (contract_ten B0 k B0) c1) c2 c3⟩

/-- Networks on the edges `0, 1, ...`, made by `add_node` without names of edges. -/
theorem solid_range {d : Nat} {tn : TN (TVal R)} {S : List Nat} (hc : tn.Consistent) (hd : HasDims tn S)
    (hn : ∀ n r, tn.nodes.get? n = some r → (n.tup = [n] ∧ n ≠ .str "*" ∧ n ≠ .str "#") ∧ ∃ m t, m ≤ S.length ∧ r.legs = rangeLegs m ∧
      r.ten = some t ∧ Solid d t ∧ t.shape = some ((S.take m).map some) ∧ (t.IsNet → n ∉ tn.edges.keys ∨ Tucked t))
    (ha : ∃ p ∈ tn.nodes, p.2.legs = rangeLegs S.length) : Solid (d + 1) (ofTN tn) := by
  have hedge : ∀ e ∈ tn.edges.keys, ∃ i : Nat, e = .int i ∧ ∃ v, S[i]? = some v := fun e he => by
    have := (hd.1 e).1 he
    rw [mem_rangeLegs] at this
    obtain ⟨i, hi, rfl⟩ := this
    exact ⟨i, rfl, _, List.getElem?_eq_getElem hi⟩
  have hrec : ∀ e r, tn.edges.get? e = some r → ∃ v, r = ⟨some v, none⟩ := fun e r hr => by
    obtain ⟨i, rfl, v, hv⟩ := hedge e (Dict.mem_keys_of_get? hr)
    have := hd.2 i v hv
    rw [hr] at this
    exact ⟨v, Option.some.inj this⟩
  have hname : ∀ n ∈ tn.nodes.keys, n.tup = [n] ∧ n ≠ .str "*" ∧ n ≠ .str "#" := fun n hn' => by
    obtain ⟨r, hr⟩ := Dict.exists_get? hn'
    exact (hn n r hr).1
  have hshape : ∀ m, m ≤ S.length → (S.take m).map some = (rangeLegs m).map tn.edim := fun m hm => by
    refine List.ext_getElem (by simp [rangeLegs, hm]) fun j hj _ => ?_
    have hj' : j < S.length := by simp at hj; omega
    have := hd.2 j _ (List.getElem?_eq_getElem hj')
    simp [rangeLegs, TN.edim, this]
  refine solid_net ⟨hc, fun e r hr => ?_, ⟨fun n h1 n' h2 h => ?_, fun n h1 n' h2 h => ?_, fun n h1 => ?_, fun e h1 => ?_,
    fun n r t h1 h2 h3 n' h4 => ?_, fun n r t h1 h2 h3 e h4 => ?_⟩, fun n r hr => ?_⟩ (fun e r l hr hl => ?_) (fun e he => ?_)
    (fun n r hr => ?_) ⟨fun n h1 => ?_, fun x h1 => ?_, fun n r t h1 h2 h3 e h4 => ?_⟩
  · obtain ⟨v, rfl⟩ := hrec e r hr
    exact ⟨v, rfl, fun f hf => by cases hf⟩
  · rw [(hname n h1).1, (hname n' h2).1] at h
    simpa using h
  · obtain ⟨i, rfl, -⟩ := hedge n h1
    obtain ⟨j, rfl, -⟩ := hedge n' h2
    simpa [Nm.tup] using h
  · rw [(hname n h1).1]; simp
  · obtain ⟨i, rfl, -⟩ := hedge e h1
    simp [Nm.tup]
  · rintro ⟨y, hy, h⟩
    rw [(hname n (Dict.mem_keys_of_get? h1)).1, (hname n' h4).1] at h
    simp at h
    exact hy h.2
  · rintro ⟨y, hy, h⟩
    obtain ⟨i, rfl, -⟩ := hedge e h4
    rw [(hname n (Dict.mem_keys_of_get? h1)).1] at h
    simp [Nm.tup] at h
    exact hy h.2
  · obtain ⟨-, m, t, h1, h2, h3, h4, h5, h6⟩ := hn n r hr
    refine ⟨t, h3, h4.flat.1, fun s hs => ?_⟩
    subst hs
    refine ⟨h4.flat.2 s rfl, ?_⟩
    have : s.shape? = some ((S.take m).map some) := h5
    rw [this, hshape m h1, h2]
  · obtain ⟨v, rfl⟩ := hrec e r hr
    cases hl
  · obtain ⟨p, hp, hl⟩ := ha
    exact Or.inl ⟨p, hp, by rw [hl]; exact (hd.1 e).1 he⟩
  · obtain ⟨-, m, t, h1, h2, h3, h4, h5, h6⟩ := hn n r hr
    exact ⟨t, h3, by rw [h5, hshape m h1, h2], h4⟩
  · obtain ⟨g1, g2, g3⟩ := hname n h1
    rw [g1]
    simp [g2, g3]
  · obtain ⟨i, rfl, -⟩ := hedge x h1
    simp [Nm.tup]
  · obtain ⟨⟨g1, -⟩, m, t', -, -, k3, -, -, k6⟩ := hn n r h1
    rw [h2] at k3; cases k3
    rw [g1] at h4
    have : n = e := by simpa using h4
    subst this
    rw [g1]
    exact (k6 h3).imp (fun h => ⟨by simp, h⟩) id

end TVal

end Verif
