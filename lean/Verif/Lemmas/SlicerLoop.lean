import Verif.Lemmas.SlicerEdge
import Verif.Props.Contract
/-!
# The slicer: the loop of `_slice`
-/

namespace Verif

variable {τ : Type}

/-- Where the sliced edges come from, and what is left of the network. -/
structure SliceInv (tn0 tn : TN τ) (sl : List Nm) : Prop where
  cons : tn.Consistent
  keys : tn.nodes.keys = tn0.nodes.keys
  legs : ∀ n r, tn.nodes.get? n = some r → ∃ r0, tn0.nodes.get? n = some r0 ∧ ∀ e ∈ r.legs, e ∈ r0.legs ∧ e ∉ sl
  edges : ∀ e, e ∉ sl → ∀ r, tn.edges.get? e = some r → tn0.edges.get? e = some r
  ok : ∀ e ∈ sl, ∃ d, tn0.edges.get? e = some ⟨some d, none⟩ ∧ 0 < d
  attached : ∀ e ∈ sl, ∃ n r, tn0.nodes.get? n = some r ∧ e ∈ r.legs

theorem sliceInv_nil {tn : TN τ} (h : tn.Consistent) : SliceInv tn tn [] :=
  ⟨h, rfl, fun _ r hr => ⟨r, hr, fun _ he => ⟨he, by simp⟩⟩, fun _ _ _ hr => hr, by simp, by simp⟩

/-- The edges of the tensors have known, positive dimensions. -/
def LegsPos (tn : TN τ) : Prop := ∀ n r, tn.nodes.get? n = some r → ∀ e ∈ r.legs, ∃ er d, tn.edges.get? e = some er ∧ er.dim = some d ∧ 0 < d

/-- Edges chosen in what is left of the network are new, unfixed edges of the network. -/
theorem SliceInv.chosen {tn0 tn : TN τ} {sl : List Nm} (h : SliceInv tn0 tn sl) (hp : LegsPos tn0) {e n : Nm} {r : NodeRec τ}
    (hr : tn.fixAll.nodes.get? n = some r) (he : e ∈ r.legs) :
    e ∉ sl ∧ (∃ d, tn0.edges.get? e = some ⟨some d, none⟩ ∧ 0 < d ∧ tn.edges.get? e = some ⟨some d, none⟩) ∧
    ∃ n r, tn0.nodes.get? n = some r ∧ e ∈ r.legs := by
  obtain ⟨c1, c2, c3, c4, c5, c6⟩ := c22_structure_partial h.cons
  have hn : n ∈ tn.nodes.keys := by rw [← c2]; exact Dict.mem_keys_of_get? hr
  obtain ⟨r1, hr1⟩ := Dict.exists_get? hn
  obtain ⟨r2, k1, _, _, k4⟩ := c1 n r1 hr1
  rw [hr, Option.some.injEq] at k1
  subst k1
  obtain ⟨m1, m2⟩ := (k4 e).1 he
  obtain ⟨r0, g1, g2⟩ := h.legs n r1 hr1
  obtain ⟨g3, g4⟩ := g2 e m1
  obtain ⟨er, her⟩ := Dict.exists_get? (h.cons.legs_exist n r1 hr1 e m1)
  have her0 := h.edges e g4 er her
  obtain ⟨er', d, p1, p2, p3⟩ := hp n r0 g1 e g3
  rw [her0, Option.some.injEq] at p1
  subst p1
  have hf : er.fix = none := by
    cases hx : er.fix with
    | none => rfl
    | some l => exact absurd ⟨l, er, her, hx⟩ m2
  have hx : er = ⟨some d, none⟩ := by
    obtain ⟨a, b⟩ := er
    simp only at hf p2
    rw [hf, p2]
  rw [hx] at her her0
  exact ⟨g4, ⟨d, her0, p3, her⟩, n, r0, g1, g3⟩

theorem SliceInv.step {tn0 tn : TN τ} {sl es : List Nm} (h : SliceInv tn0 tn sl) (hp : LegsPos tn0)
    (he : ∀ e ∈ es, ∃ n r, tn.fixAll.nodes.get? n = some r ∧ e ∈ r.legs) :
    (∀ e ∈ es, e ∉ sl) ∧ ∃ tn1, tn.fixSlices es = some tn1 ∧ SliceInv tn0 tn1 (sl ++ es) := by
  have hch : ∀ e ∈ es, e ∉ sl ∧ (∃ d, tn0.edges.get? e = some ⟨some d, none⟩ ∧ 0 < d ∧ tn.edges.get? e = some ⟨some d, none⟩) ∧
      ∃ n r, tn0.nodes.get? n = some r ∧ e ∈ r.legs := fun e hm => by
    obtain ⟨n, r, k1, k2⟩ := he e hm
    exact h.chosen hp k1 k2
  obtain ⟨tn1, a1, a2, a3, a4, a5⟩ := fixSlices_spec (es := es) h.cons fun e hm => by
    obtain ⟨_, ⟨d, _, k2, k3⟩, _⟩ := hch e hm
    exact ⟨_, d, k3, rfl, k2⟩
  refine ⟨fun e hm => (hch e hm).1, tn1, a1, ⟨a2, a3.trans h.keys, fun n r hr => ?_, fun e hm r hr => ?_, fun e hm => ?_, fun e hm => ?_⟩⟩
  · obtain ⟨r1, b1, b2⟩ := a4 n r hr
    obtain ⟨r0, g1, g2⟩ := h.legs n r1 b1
    refine ⟨r0, g1, fun e hm => ?_⟩
    obtain ⟨c1, c2, _⟩ := b2 e hm
    obtain ⟨d1, d2⟩ := g2 e c1
    exact ⟨d1, by simp [d2, c2]⟩
  · rw [List.mem_append, not_or] at hm
    exact h.edges e hm.1 r (a5 e hm.2 r hr)
  · rcases List.mem_append.1 hm with hm | hm
    · exact h.ok e hm
    · obtain ⟨_, ⟨d, k1, k2, _⟩, _⟩ := hch e hm
      exact ⟨d, k1, k2⟩
  · rcases List.mem_append.1 hm with hm | hm
    · exact h.attached e hm
    · exact (hch e hm).2.2

/-- An order as the slicer needs it. -/
structure GoodOrder (ns : List Nm) (o : List OrderStep) : Prop where
  valid : ValidOrder ns o (.str "#")
  single : SingleAssignment ns o
  pairs : Pairwise2 o

/-- What `opt_einsum` gives are paths, and a Python set is read element by element. -/
structure SliceEnv.Good (V : SliceEnv τ) : Prop where
  before : ∀ r ∈ V.before, GoodPaths r.2.2
  middle : ∀ i, ∀ r ∈ V.middle i, GoodPaths r.2.2
  after : ∀ r ∈ V.after, GoodPaths r.2.2
  path : ∀ i, GoodPaths (V.path i)
  enum : ∀ S a, a ∈ V.enum S ↔ a ∈ S

theorem Sch.optimize_good {size : Nat} {rounds : OptRounds} {cost : List OrderStep → Cost} {y : Sch} {ns : List Nm}
    (hr : ∀ r ∈ rounds, GoodPaths r.2.2) (hy : GoodOrder ns y.order) :
    ∃ y', y.optimize size rounds cost = some y' ∧ GoodOrder ns y'.order ∧ (rounds = [] → y' = y) := by
  obtain ⟨o', a1, a2, a3, a4⟩ := c33_optimize_partial size rounds hr hy.valid hy.single hy.pairs
  cases rounds with
  | nil => exact ⟨y, rfl, hy, fun _ => rfl⟩
  | cons r rs => exact ⟨⟨o', cost o'⟩, by unfold Sch.optimize; simp only [a1, Option.map_some], ⟨a2, a3, a4⟩, fun h => by simp at h⟩

/-- The loop of `_slice`: if it ends, the order is good for what is left of the network. -/
theorem sliceLoop_spec {P : SliceParams} {V : SliceEnv τ} (hV : V.Good) {tn0 : TN τ} (hp : LegsPos tn0) (h2 : 2 ≤ tn0.nodes.keys.length) {fuel : Nat} :
    ∀ {i : Nat} {tn tn' : TN τ} {sl sl' : List Nm} {y y' : Sch}, SliceInv tn0 tn sl → GoodOrder tn0.nodes.keys y.order →
      (sl = [] ∨ (sl.length : Int) ≤ P.maxNumSlice + 9) →
      sliceLoop P V fuel i tn sl y = some (tn', sl', y') →
      SliceInv tn0 tn' sl' ∧ GoodOrder tn0.nodes.keys y'.order ∧ (sl' = [] ∨ (sl'.length : Int) ≤ P.maxNumSlice + 9) ∧ sl <+: sl' := by
  induction fuel with
  | zero => intro i tn tn' sl sl' y y' _ _ _ h; simp [sliceLoop] at h
  | succ fuel ih =>
    intro i tn tn' sl sl' y y' hI hy hb h
    have stop : (tn, sl, y) = (tn', sl', y') →
        SliceInv tn0 tn' sl' ∧ GoodOrder tn0.nodes.keys y'.order ∧ (sl' = [] ∨ (sl'.length : Int) ≤ P.maxNumSlice + 9) ∧ sl <+: sl' := by
      intro e
      simp only [Prod.mk.injEq] at e
      obtain ⟨rfl, rfl, rfl⟩ := e
      exact ⟨hI, hy, hb, List.prefix_refl _⟩
    unfold sliceLoop at h
    split at h
    · split at h
      · exact stop (Option.some.inj h)
      · rename_i hlen
        split at h
        · exact stop (Option.some.inj h)
        · obtain ⟨y1, a1, a2, _⟩ := y.optimize_good (size := P.size) (rounds := V.middle i) (cost := V.cost tn) (hV.middle i) hy
          rw [a1] at h
          simp only at h
          obtain ⟨path, g, _, _, _, b4, b5⟩ := biggestEdge_spec hV.enum P.accept hI.cons (by rw [hI.keys]; exact a2.valid) (by rw [hI.keys]; exact a2.single) a2.pairs
            (by rw [hI.keys]; exact h2)
          by_cases hsp : g.spans V.enum = []
          · rw [b4 hsp] at h
            simp at h
          · obtain ⟨es, o, c1, c2, c3, c4, c5, c6, c7⟩ := b5 hsp
            rw [c1] at h
            simp only at h
            rw [hI.keys] at c5 c6
            obtain ⟨_, tn1, d1, d2⟩ := hI.step hp c4
            rw [d1] at h
            simp only at h
            obtain ⟨o', _, e1, e2, e3, _, e5, _⟩ := resolveOrder_good (hV.path i) c5 c6
            rw [e1] at h
            simp only at h
            have hl : (sl ++ es) = [] ∨ ((sl ++ es).length : Int) ≤ P.maxNumSlice + 9 := by
              right
              rw [List.length_append]
              push_cast
              omega
            obtain ⟨f1, f2, f3, f4⟩ := ih d2 ⟨e2, e3, e5 fun s hs => (c7 s hs).ge⟩ hl h
            exact ⟨f1, f2, f3, (List.prefix_append _ _).trans f4⟩
    · exact stop (Option.some.inj h)

theorem bestSch_mem {l : List Sch} {y : Sch} (h : bestSch l = some y) : y ∈ l := by
  cases l with
  | nil => simp [bestSch] at h
  | cons x l =>
    simp only [bestSch, Option.some.injEq] at h
    have : ∀ (l : List Sch) (b : Sch), l.foldl (fun b a => if !(a.cost.eq b.cost) && a.cost.lt b.cost then a else b) b ∈ b :: l := by
      intro l
      induction l with
      | nil => simp
      | cons a l ih =>
        intro b
        rw [List.foldl_cons]
        split
        · exact List.mem_cons_of_mem _ (ih a)
        · rcases List.mem_cons.1 (ih b) with h | h
          · rw [h]; exact List.mem_cons_self
          · exact List.mem_cons_of_mem _ (List.mem_cons_of_mem _ h)
    rw [← h]
    exact this l x

end Verif
