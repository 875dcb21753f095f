import Verif.Props.Slicer
import Mathlib.Analysis.SpecialFunctions.Log.Base
/-!
# C58: the choices of the slicer

Which scheme is the first one, which ranges and edges are taken, when the search stops, and what cost is reported
(acqdp/tensor_network/slicer.py).
-/

namespace Verif
open Uct

variable {τ : Type}

/-- **C58**: the search starts from the first of the cheapest schemes. -/
theorem c58_first {orders : List Sch} {y : Sch} : bestSch orders = some y ↔
    ∃ l1 l2, orders = l1 ++ y :: l2 ∧ (∀ z ∈ l1, y.cost.s * 2 ^ y.cost.k < z.cost.s * 2 ^ z.cost.k) ∧
      ∀ z ∈ l2, y.cost.s * 2 ^ y.cost.k ≤ z.cost.s * 2 ^ z.cost.k := by
  have key : ∀ (l l0 : List Sch) (b : Sch), (∀ z ∈ l0, b.cost.s * 2 ^ b.cost.k < z.cost.s * 2 ^ z.cost.k) → ∀ lb : List Sch,
      (∀ z ∈ lb, b.cost.s * 2 ^ b.cost.k ≤ z.cost.s * 2 ^ z.cost.k) →
      ∃ l1 l2, l0 ++ b :: (lb ++ l) = l1 ++ (l.foldl (fun b a => if !(a.cost.eq b.cost) && a.cost.lt b.cost then a else b) b) :: l2 ∧
        (∀ z ∈ l1, (l.foldl (fun b a => if !(a.cost.eq b.cost) && a.cost.lt b.cost then a else b) b).cost.s *
          2 ^ (l.foldl (fun b a => if !(a.cost.eq b.cost) && a.cost.lt b.cost then a else b) b).cost.k < z.cost.s * 2 ^ z.cost.k) ∧
        ∀ z ∈ l2, (l.foldl (fun b a => if !(a.cost.eq b.cost) && a.cost.lt b.cost then a else b) b).cost.s *
          2 ^ (l.foldl (fun b a => if !(a.cost.eq b.cost) && a.cost.lt b.cost then a else b) b).cost.k ≤ z.cost.s * 2 ^ z.cost.k := by
    intro l
    induction l with
    | nil => intro l0 b h0 lb hb; exact ⟨l0, lb, by simp, h0, hb⟩
    | cons a l ih =>
      intro l0 b h0 lb hb
      rw [List.foldl_cons]
      by_cases hlt : a.cost.s * 2 ^ a.cost.k < b.cost.s * 2 ^ b.cost.k
      · have : (!(a.cost.eq b.cost) && a.cost.lt b.cost) = true := by
          simp [Cost.eq, Cost.lt, hlt, hlt.ne]
        rw [if_pos this]
        obtain ⟨l1, l2, e, m1, m2⟩ := ih (l0 ++ b :: lb) a (by
          intro z hz
          rcases List.mem_append.1 hz with hz | hz
          · exact hlt.trans (h0 z hz)
          · rcases List.mem_cons.1 hz with rfl | hz
            · exact hlt
            · exact hlt.trans_le (hb z hz)) [] (by simp)
        exact ⟨l1, l2, by rw [← e]; simp, m1, m2⟩
      · have : (!(a.cost.eq b.cost) && a.cost.lt b.cost) = false := by
          simp [Cost.lt, hlt]
        rw [this, if_neg (by simp)]
        obtain ⟨l1, l2, e, m1, m2⟩ := ih l0 b h0 (lb ++ [a]) (by
          intro z hz
          rcases List.mem_append.1 hz with hz | hz
          · exact hb z hz
          · rw [List.mem_singleton.1 hz]
            exact not_lt.1 hlt)
        exact ⟨l1, l2, by rw [← e]; simp, m1, m2⟩
  have uniq : ∀ {l1 l2 m1 m2 : List Sch} {y z : Sch}, l1 ++ y :: l2 = m1 ++ z :: m2 →
      (∀ w ∈ l1, y.cost.s * 2 ^ y.cost.k < w.cost.s * 2 ^ w.cost.k) → (∀ w ∈ l2, y.cost.s * 2 ^ y.cost.k ≤ w.cost.s * 2 ^ w.cost.k) →
      (∀ w ∈ m1, z.cost.s * 2 ^ z.cost.k < w.cost.s * 2 ^ w.cost.k) → (∀ w ∈ m2, z.cost.s * 2 ^ z.cost.k ≤ w.cost.s * 2 ^ w.cost.k) → y = z := by
    intro l1 l2 m1 m2 y z e a1 a2 b1 b2
    rcases List.append_eq_append_iff.1 e with ⟨c, e1, e2⟩ | ⟨c, e1, e2⟩
    · cases c with
      | nil => simp at e2; exact e2.1
      | cons c0 c =>
        simp at e2
        have h1 := b1 y (by rw [e1, e2.1]; simp)
        have h2 := a2 z (by rw [e2.2]; simp)
        omega
    · cases c with
      | nil => simp at e2; exact e2.1.symm
      | cons c0 c =>
        simp at e2
        have h1 := a1 z (by rw [e1, e2.1]; simp)
        have h2 := b2 y (by rw [e2.2]; simp)
        omega
  cases orders with
  | nil => simp [bestSch]
  | cons x l =>
    obtain ⟨l1, l2, e, m1, m2⟩ := key l [] x (by simp) [] (by simp)
    simp only [bestSch, Option.some.injEq]
    simp only [List.nil_append] at e
    constructor
    · rintro rfl
      exact ⟨l1, l2, e, m1, m2⟩
    · rintro ⟨k1, k2, e', n1, n2⟩
      exact uniq (e.symm.trans e') m1 m2 n1 n2

/-- **C58**: of the ranges ten are tried (all, if there are fewer), and none left out is longer than one of them. -/
theorem c58_longest (ss : List (Nat × Nat × Nat)) : ∃ rest, (longest ss ++ rest).Perm ss ∧ (longest ss).length = min 10 ss.length ∧
    (∀ x ∈ longest ss, ∀ y ∈ rest, (y.2.2 : Int) - y.2.1 ≤ x.2.2 - x.2.1) ∧
    (longest ss).Pairwise fun x y => (y.2.2 : Int) - y.2.1 ≤ x.2.2 - x.2.1 := by
  have hs : (ss.insertionSort fun x y : Nat × Nat × Nat => (x.2.1 : Int) - x.2.2 ≤ (y.2.1 : Int) - y.2.2).Pairwise
      fun x y => (y.2.2 : Int) - y.2.1 ≤ x.2.2 - x.2.1 := by
    have h1 : Std.Total fun x y : Nat × Nat × Nat => (x.2.1 : Int) - x.2.2 ≤ (y.2.1 : Int) - y.2.2 := ⟨fun x y => le_total _ _⟩
    have h2 : IsTrans (Nat × Nat × Nat) fun x y => (x.2.1 : Int) - x.2.2 ≤ (y.2.1 : Int) - y.2.2 := ⟨fun x y z => le_trans⟩
    exact (List.pairwise_insertionSort (fun x y : Nat × Nat × Nat => (x.2.1 : Int) - x.2.2 ≤ (y.2.1 : Int) - y.2.2) ss).imp fun h => by omega
  have hp := List.perm_insertionSort (fun x y : Nat × Nat × Nat => (x.2.1 : Int) - x.2.2 ≤ (y.2.1 : Int) - y.2.2) ss
  refine ⟨(ss.insertionSort fun x y => (x.2.1 : Int) - x.2.2 ≤ (y.2.1 : Int) - y.2.2).drop 10, ?_, ?_, ?_, ?_⟩
  · unfold longest
    rw [List.take_append_drop]
    exact hp
  · unfold longest
    rw [List.length_take, hp.length_eq]
  · rw [← List.take_append_drop 10 (ss.insertionSort _), List.pairwise_append] at hs
    exact hs.2.2
  · exact hs.sublist (List.take_sublist _ _)

/-- `numpy.log2(t) - max_tw + k >= max_num_slice + 2`, or a limit reached: nothing more is sliced. -/
def StopsAt (P : SliceParams) (t k : Nat) : Prop :=
  t ≤ 2 ^ P.maxTw ∨ P.maxNumSlice ≤ k ∨ (P.maxNumSlice : ℝ) + 2 ≤ Real.logb 2 t - P.maxTw + k

theorem hopeless_iff {P : SliceParams} {t k : Nat} (ht : 0 < t) :
    hopeless P t k = true ↔ (P.maxNumSlice : ℝ) + 2 ≤ Real.logb 2 t - P.maxTw + k := by
  have h1 : (P.maxNumSlice : ℝ) + 2 ≤ Real.logb 2 t - P.maxTw + k ↔ ((P.maxNumSlice + 2 + P.maxTw - k : Int) : ℝ) ≤ Real.logb 2 t := by
    push_cast
    constructor <;> intro h <;> linarith
  rw [h1, Real.le_logb_iff_rpow_le (by norm_num) (by exact_mod_cast ht), Real.rpow_intCast]
  unfold hopeless
  generalize P.maxNumSlice + 2 + P.maxTw - k = m
  split
  · rename_i hm
    obtain ⟨n, rfl⟩ := Int.eq_ofNat_of_zero_le hm
    rw [decide_eq_true_eq, Int.toNat_natCast, zpow_natCast]
    exact_mod_cast Iff.rfl
  · rename_i hm
    simp only [ht, decide_true, true_iff]
    have h2 : (2 : ℝ) ^ m ≤ 1 := zpow_le_one_of_nonpos₀ (by norm_num) (by omega)
    have h3 : (1 : ℝ) ≤ t := by exact_mod_cast ht
    exact h2.trans h3

/-- **C58**: the loop ends in the state it is in exactly if the limit on the width is met, `max_num_slice` edges are sliced, or
the early termination of slicer.py:55-57 applies; and it ends in no other states. -/
theorem c58_stops {P : SliceParams} {V : SliceEnv τ} {fuel i : Nat} {tn : TN τ} {sl : List Nm} {y : Sch} :
    ((∃ tn' sl' y', sliceLoop P V (fuel + 1) i tn sl y = some (tn', sl', y') ∧ sl'.length = sl.length) ↔ StopsAt P y.cost.t sl.length) ∧
    (StopsAt P y.cost.t sl.length → sliceLoop P V (fuel + 1) i tn sl y = some (tn, sl, y)) ∧
    ∀ tn' sl' y', sliceLoop P V (fuel + 1) i tn sl y = some (tn', sl', y') → StopsAt P y'.cost.t sl'.length := by
  have one : ∀ {fuel i : Nat} {tn : TN τ} {sl : List Nm} {y : Sch}, StopsAt P y.cost.t sl.length →
      sliceLoop P V (fuel + 1) i tn sl y = some (tn, sl, y) := by
    intro fuel i tn sl y h
    unfold sliceLoop
    split
    · rename_i hgt
      split
      · rfl
      · rename_i hlt
        rw [if_pos]
        rw [hopeless_iff (lt_of_le_of_lt (Nat.zero_le _) hgt)]
        rcases h with h | h | h
        · omega
        · omega
        · exact h
    · rfl
  have two : ∀ {fuel i : Nat} {tn tn' : TN τ} {sl sl' : List Nm} {y y' : Sch}, sliceLoop P V fuel i tn sl y = some (tn', sl', y') →
      StopsAt P y'.cost.t sl'.length ∧ (StopsAt P y.cost.t sl.length ∨ sl.length < sl'.length) := by
    intro fuel
    induction fuel with
    | zero => intro i tn tn' sl sl' y y' h; simp [sliceLoop] at h
    | succ fuel ih =>
      intro i tn tn' sl sl' y y' h
      by_cases hs : StopsAt P y.cost.t sl.length
      · rw [one hs] at h
        simp only [Option.some.injEq, Prod.mk.injEq] at h
        obtain ⟨rfl, rfl, rfl⟩ := h
        exact ⟨hs, Or.inl hs⟩
      · have hgt : y.cost.t > 2 ^ P.maxTw := by
          by_contra hc
          exact hs (Or.inl (not_lt.1 hc))
        have hlt : ¬ (sl.length : Int) ≥ P.maxNumSlice := fun hc => hs (Or.inr (Or.inl hc))
        have hh : ¬ hopeless P y.cost.t sl.length = true := fun hc =>
          hs (Or.inr (Or.inr ((hopeless_iff (lt_of_le_of_lt (Nat.zero_le _) hgt)).1 hc)))
        unfold sliceLoop at h
        rw [if_pos hgt, if_neg hlt, if_neg hh] at h
        split at h
        · simp at h
        split at h
        · simp at h
        rename_i k order hk
        split at h
        · simp at h
        split at h
        · simp at h
        obtain ⟨a1, a2⟩ := ih h
        have hne := List.length_pos_iff.2 (biggestEdge_ne hk)
        have hle : (sl ++ k).length = sl.length + k.length := List.length_append
        refine ⟨a1, Or.inr ?_⟩
        rcases a2 with a2 | a2
        · cases fuel with
          | zero => simp [sliceLoop] at h
          | succ fuel =>
            rw [one a2] at h
            simp only [Option.some.injEq, Prod.mk.injEq] at h
            rw [← h.2.1]
            omega
        · omega
  refine ⟨⟨?_, fun h => ⟨tn, sl, y, one h, rfl⟩⟩, one, fun _ _ _ h => (two h).1⟩
  rintro ⟨tn', sl', y', h, hl⟩
  rcases (two h).2 with h | h
  · exact h
  · omega

/-- **C58**: no scheme is returned only if the loop ended with a scheme that is too wide, because of one of the two limits. -/
theorem c58_gives_up {P : SliceParams} {V : SliceEnv τ} {tn : TN τ} {orders : List Sch} (h : sliceScheme P V tn orders = some none) :
    ∃ y0 y1 tn1 sl y, bestSch orders = some y0 ∧ y0.optimize P.size V.before (V.cost tn) = some y1 ∧
      sliceLoop P V (P.maxNumSlice.toNat + 1) 0 tn [] y1 = some (tn1, sl, y) ∧ 2 ^ P.maxTw < y.cost.t ∧
      (P.maxNumSlice ≤ sl.length ∨ (P.maxNumSlice : ℝ) + 2 ≤ Real.logb 2 y.cost.t - P.maxTw + sl.length) := by
  unfold sliceScheme at h
  split at h
  · simp at h
  rename_i y0 hy0
  split at h
  · simp at h
  rename_i y1 hy1
  split at h
  · simp at h
  rename_i tn1 sl y hl
  split at h
  · simp at h
  rename_i new hnew
  dsimp only at h
  have hw : 2 ^ P.maxTw < y.cost.t := by
    have hm : (y.mutated P.size V.after).cost = y.cost := by
      unfold Sch.mutated
      split <;> rfl
    by_cases hle : new.cost.t ≤ 2 ^ P.maxTw
    · rw [if_pos hle, if_pos (by exact hle)] at h
      simp at h
    · rw [if_neg hle] at h
      by_cases he : V.after = []
      · unfold Sch.optimize at hnew
        rw [he] at hnew
        simp only [Option.some.injEq] at hnew
        subst hnew
        exact not_le.1 hle
      · rw [if_neg he, hm] at h
        by_contra hc
        rw [if_pos (not_lt.1 hc)] at h
        simp at h
  refine ⟨y0, y1, tn1, sl, y, hy0, hy1, hl, hw, ?_⟩
  rcases c58_stops.2.2 _ _ _ hl with h | h
  · omega
  · exact h

/-- **C58**: the cost of the scheme returned counts the sliced edges (if the costs the search starts from and those of
`opt_einsum` count none). -/
theorem c58_count {P : SliceParams} {V : SliceEnv τ} (hV : ∀ tn o, (V.cost tn o).k = 0) {tn : TN τ} {orders : List Sch}
    (ho : ∀ y ∈ orders, y.cost.k = 0) {res : Sch} {sl : List Nm} (h : sliceScheme P V tn orders = some (some (res, sl))) :
    res.cost.k = sl.length := by
  have hopt : ∀ {rounds : OptRounds} {tn : TN τ} {y y' : Sch}, y.optimize P.size rounds (V.cost tn) = some y' → y' = y ∨ y'.cost.k = 0 := by
    intro rounds tn y y' h
    unfold Sch.optimize at h
    split at h
    · simp only [Option.some.injEq] at h
      exact Or.inl h.symm
    · rw [Option.map_eq_some_iff] at h
      obtain ⟨o, _, rfl⟩ := h
      exact Or.inr (hV _ _)
  have loop : ∀ {fuel i : Nat} {tn tn' : TN τ} {sl sl' : List Nm} {y y' : Sch}, y.cost.k = sl.length →
      sliceLoop P V fuel i tn sl y = some (tn', sl', y') → y'.cost.k = sl'.length := by
    intro fuel
    induction fuel with
    | zero => intro i tn tn' sl sl' y y' _ h; simp [sliceLoop] at h
    | succ fuel ih =>
      intro i tn tn' sl sl' y y' hk h
      have stop : some (tn, sl, y) = some (tn', sl', y') → y'.cost.k = sl'.length := by
        intro e
        simp only [Option.some.injEq, Prod.mk.injEq] at e
        rw [← e.2.2, ← e.2.1, hk]
      unfold sliceLoop at h
      split at h
      · split at h
        · exact stop h
        split at h
        · exact stop h
        split at h
        · simp at h
        split at h
        · simp at h
        split at h
        · simp at h
        split at h
        · simp at h
        exact ih (by rfl) h
      · exact stop h
  unfold sliceScheme at h
  split at h
  · simp at h
  rename_i y0 hy0
  split at h
  · simp at h
  rename_i y1 hy1
  split at h
  · simp at h
  rename_i tn1 sl1 y hl
  split at h
  · simp at h
  rename_i new hnew
  dsimp only at h
  have h1 : y1.cost.k = 0 := by
    rcases hopt hy1 with rfl | h
    · exact ho _ (bestSch_mem hy0)
    · exact h
  have h2 : y.cost.k = sl1.length := loop (by rw [h1]; rfl) hl
  have hm : (y.mutated P.size V.after).cost = y.cost := by
    unfold Sch.mutated
    split <;> rfl
  generalize hr : (if new.cost.t ≤ 2 ^ P.maxTw then ({ new with cost := { new.cost with k := sl1.length } } : Sch) else
    if V.after = [] then { new with cost := { new.cost with k := sl1.length } } else y.mutated P.size V.after) = r at h
  have hk : r.cost.k = sl1.length := by
    rw [← hr]
    split
    · rfl
    · split
      · rfl
      · rw [hm, h2]
  split at h
  · simp only [Option.some.injEq, Prod.mk.injEq] at h
    rw [← h.1, ← h.2, hk]
  · simp at h

/-- **C58**: if taking out no single subscript helps enough (slicer.py:192), one edge is sliced: one whose subscript leaves the
smallest cost among those of the ten longest ranges.  Partial: subscripts with several ranges are excluded, where only the cost
of the last one is compared; and these costs are those `Uct.without` gives (`c58_cost_violated`). -/
theorem c58_cheapest_partial {enum : Finset Nat → List Nat} {accept : Int → Int → Bool} {tn : TN τ} {order : List OrderStep}
    {path : List (Nat × Nat)} {g : Uct} (hpath : (orderToPath tn.fixAll.nodes.keys order).bind pairsOfPath = some path)
    (hg : Uct.make tn.fixAll.subSets.1 tn.fixAll.subSets.2 path = some g) (hnd : ((longest (g.spans enum)).map (·.1)).Nodup)
    (hno : ∀ s ∈ longest (g.spans enum), ∀ g' c, g.without s = some (g', c) → accept c g.cost = false)
    {es : List Nm} {o : List OrderStep} (h : biggestEdge enum accept tn order = some (es, o)) :
    ∃ s ∈ longest (g.spans enum), ∃ e g' c, es = [e] ∧ tn.fixAll.edges.keys[s.1]? = some e ∧ g.without s = some (g', c) ∧
      ∀ s' ∈ longest (g.spans enum), ∃ g'' c', g.without s' = some (g'', c') ∧ c ≤ c' := by
  have key : ∀ (ss : List (Nat × Nat × Nat)) (p q : Pick), p.tree = g → p.cost = g.cost → p.taken = [] →
      (∀ s ∈ ss, ∀ g' c, g.without s = some (g', c) → accept c g.cost = false) → (ss.map (·.1)).Nodup → (∀ s ∈ ss, s.1 ∉ p.dic.keys) →
      ss.foldlM (Pick.round accept) p = some q → q.taken = [] ∧
      ∃ l, q.dic = p.dic ++ l ∧ (∀ x ∈ l, ∃ s ∈ ss, s.1 = x.1 ∧ ∃ g', g.without s = some (g', x.2.1)) ∧
        ∀ s ∈ ss, ∃ x ∈ l, s.1 = x.1 ∧ ∃ g', g.without s = some (g', x.2.1) := by
    intro ss
    induction ss with
    | nil =>
      intro p q _ _ h3 _ _ _ hq
      simp only [List.foldlM_nil, Option.pure_def, Option.some.injEq] at hq
      subst hq
      exact ⟨h3, [], by simp, by simp, by simp⟩
    | cons s ss ih =>
      intro p q h1 h2 h3 hn hd hk hq
      rw [List.foldlM_cons] at hq
      cases hr : Pick.round accept p s with
      | none => rw [hr] at hq; simp at hq
      | some p1 =>
        rw [hr] at hq
        simp only [Option.bind_eq_bind, Option.bind_some] at hq
        unfold Pick.round at hr
        rw [h1] at hr
        split at hr
        · simp at hr
        rename_i g' c hw
        rw [h2, hn s List.mem_cons_self _ _ hw, if_neg (by simp), Option.map_eq_some_iff] at hr
        obtain ⟨pp, _, rfl⟩ := hr
        rw [List.map_cons, List.nodup_cons] at hd
        have hset : p.dic.set s.1 (c, pp) = p.dic ++ [(s.1, c, pp)] := Dict.set_eq_append (hk s List.mem_cons_self) _
        obtain ⟨a1, l, a2, a3, a4⟩ := ih _ q rfl rfl (by exact h3) (fun s' hs' => hn s' (List.mem_cons_of_mem _ hs')) hd.2
          (by
            intro s' hs'
            show s'.1 ∉ (p.dic.set s.1 (c, pp)).keys
            rw [hset]
            simp only [Dict.keys, List.map_append, List.map_cons, List.map_nil, List.mem_append, List.mem_singleton, not_or]
            refine ⟨hk s' (List.mem_cons_of_mem _ hs'), fun he => hd.1 ?_⟩
            rw [← he]
            exact List.mem_map_of_mem hs') hq
        refine ⟨a1, (s.1, c, pp) :: l, ?_, ?_, ?_⟩
        · rw [a2]
          show p.dic.set s.1 (c, pp) ++ l = _
          rw [hset]
          simp
        · intro x hx
          rcases List.mem_cons.1 hx with rfl | hx
          · exact ⟨s, List.mem_cons_self, rfl, g', hw⟩
          · obtain ⟨s', k1, k2⟩ := a3 x hx
            exact ⟨s', List.mem_cons_of_mem _ k1, k2⟩
        · intro s' hs'
          rcases List.mem_cons.1 hs' with rfl | hs'
          · exact ⟨_, List.mem_cons_self, rfl, g', hw⟩
          · obtain ⟨x, k1, k2⟩ := a4 s' hs'
            exact ⟨x, List.mem_cons_of_mem _ k1, k2⟩
  unfold biggestEdge at h
  simp only [hpath, hg] at h
  split at h
  · simp at h
  rename_i q hq
  obtain ⟨a1, l, a2, a3, a4⟩ := key _ _ _ rfl rfl rfl hno hnd (by simp [Dict.keys]) hq
  simp only [List.nil_append] at a2
  unfold Pick.result at h
  rw [a1, if_neg (by simp)] at h
  cases hx : cheapest q.dic with
  | none => rw [hx] at h; simp at h
  | some x =>
    rw [hx] at h
    simp only [Option.map_some] at h
    obtain ⟨m1, m2⟩ := cheapest_mem hx
    rw [a2] at m1 m2
    obtain ⟨s, s1, s2, g', s3⟩ := a3 x m1
    cases he : tn.fixAll.edges.keys[x.1]? with
    | none => simp [he] at h
    | some e =>
      simp only [List.mapM_cons, List.mapM_nil, he, Option.pure_def, Option.bind_eq_bind, Option.bind_some] at h
      split at h
      · rename_i hes ho
        simp only [Option.some.injEq, Prod.mk.injEq] at h hes
        refine ⟨s, s1, e, g', _, by rw [← h.1, ← hes], by rw [s2]; exact he, s3, fun s' hs' => ?_⟩
        obtain ⟨x', x1, x2, g'', x3⟩ := a4 s' hs'
        exact ⟨g'', _, x3, m2 x' x1⟩
      · simp at h

/-! ## Concrete cases -/

/-- `c58_count`: two edges are sliced. -/
example : ∃ res, sliceScheme ⟨2, 3, 4, defaultAccept⟩ plainSlicing twiceNet [⟨twiceOrder, ⟨0, 8, 0⟩⟩] =
    some (some (res, [.int 100, .int 100])) ∧ res.cost.k = 2 := by
  obtain ⟨res, h, _⟩ := c58_twice_violated
  exact ⟨res, h, c58_count (fun _ _ => rfl) (by simp) h⟩

/-- `c58_first`: of three schemes the second one is taken, not the third one of the same cost. -/
example : bestSch [⟨[], ⟨9, 4, 0⟩⟩, ⟨twiceOrder, ⟨4, 8, 1⟩⟩, ⟨[], ⟨8, 2, 0⟩⟩] = some ⟨twiceOrder, ⟨4, 8, 1⟩⟩ :=
  c58_first.2 ⟨[⟨[], ⟨9, 4, 0⟩⟩], [⟨[], ⟨8, 2, 0⟩⟩], rfl, by simp, by simp⟩

/-- `c58_longest`: the longest of eleven ranges is tried. -/
example : (8, 0, 9) ∈ longest ((8, 0, 9) :: (List.range 10).map fun i => (i, i, i + 1)) := by
  obtain ⟨rest, h1, h2, h3, _⟩ := c58_longest ((8, 0, 9) :: (List.range 10).map fun i => (i, i, i + 1))
  by_contra hc
  have hr : (8, 0, 9) ∈ rest := by
    rcases List.mem_append.1 (h1.mem_iff.2 List.mem_cons_self) with h | h
    · exact absurd h hc
    · exact h
  have hne : longest ((8, 0, 9) :: (List.range 10).map fun i => (i, i, i + 1)) ≠ [] := by
    intro e
    rw [e] at h2
    simp at h2
  obtain ⟨x, hx⟩ := List.exists_mem_of_ne_nil _ hne
  have hm := mem_longest hx
  have := h3 x hx _ hr
  rcases List.mem_cons.1 hm with rfl | hm
  · exact hc hx
  · rw [List.mem_map] at hm
    obtain ⟨i, _, rfl⟩ := hm
    simp at this

/-- `c58_stops`, `c58_gives_up`: a width of 2^8 with a limit of 2^2 and two slices is hopeless. -/
example : sliceScheme ⟨2, 2, 4, defaultAccept⟩ plainSlicing twiceNet [⟨twiceOrder, ⟨0, 2 ^ 8, 0⟩⟩] = some none ∧
    StopsAt ⟨2, 2, 4, defaultAccept⟩ (2 ^ 8) 0 ∧ ¬ StopsAt ⟨2, 2, 4, defaultAccept⟩ 63 0 := by
  refine ⟨rfl, Or.inr (Or.inr ?_), ?_⟩
  · rw [← hopeless_iff (by norm_num)]
    rfl
  · rintro (h | h | h)
    · simp at h
    · simp at h
    · rw [← hopeless_iff (by norm_num)] at h
      exact absurd h (by decide)

/-- Six tensors around a ring. -/
def ringNet : TN Shp := (TN.run {} [sliceTen 0 [0, 1], sliceTen 1 [1, 2, 7], sliceTen 2 [2, 3, 5], sliceTen 3 [3, 4], sliceTen 4 [4, 6],
  sliceTen 5 [6, 0, 7]]).getD {}

/-- An order for them. -/
def ringOrder : List OrderStep :=
  [([.int 0, .int 1], .str "s0"), ([.int 2, .str "s0"], .str "s1"), ([.int 3, .str "s1"], .str "s2"), ([.int 4, .str "s2"], .str "s3"),
   ([.int 5, .str "s3"], .str "#")]

/-- `c58_cheapest_partial`: nothing is taken at once; four ranges are tried. -/
example : ∃ (g : Uct) (e : Nm) (o : List OrderStep) (s : Nat × Nat × Nat), (longest (g.spans enumSet)).length = 4 ∧ s ∈ longest (g.spans enumSet) ∧
    biggestEdge enumSet (fun _ _ => false) ringNet ringOrder = some ([e], o) ∧ ringNet.fixAll.edges.keys[s.1]? = some e ∧
    ∀ s' ∈ longest (g.spans enumSet), ∃ g' g'' c c', g.without s = some (g', c) ∧ g.without s' = some (g'', c') ∧ c ≤ c' := by
  have h1 : ∃ path g, (orderToPath ringNet.fixAll.nodes.keys ringOrder).bind pairsOfPath = some path ∧
      Uct.make ringNet.fixAll.subSets.1 ringNet.fixAll.subSets.2 path = some g ∧ ((longest (g.spans enumSet)).map (·.1)).Nodup ∧
      (longest (g.spans enumSet)).length = 4 := by
    have h : (((orderToPath ringNet.fixAll.nodes.keys ringOrder).bind pairsOfPath).bind fun path =>
        (Uct.make ringNet.fixAll.subSets.1 ringNet.fixAll.subSets.2 path).map fun g =>
          decide (((longest (g.spans enumSet)).map (·.1)).Nodup ∧ (longest (g.spans enumSet)).length = 4)) = some true := by decide +kernel
    rw [Option.bind_eq_some_iff] at h
    obtain ⟨path, h1, h2⟩ := h
    rw [Option.map_eq_some_iff] at h2
    obtain ⟨g, h2, h3⟩ := h2
    rw [decide_eq_true_eq] at h3
    exact ⟨path, g, h1, h2, h3⟩
  obtain ⟨path, g, a1, a2, a3, a4⟩ := h1
  have h2 : (biggestEdge enumSet (fun _ _ => false) ringNet ringOrder).isSome = true := by decide +kernel
  obtain ⟨⟨es, o⟩, h2⟩ := Option.isSome_iff_exists.1 h2
  obtain ⟨s, b1, e, g', c, rfl, b2, b3, b4⟩ := c58_cheapest_partial a1 a2 a3 (fun _ _ _ _ _ => rfl) h2
  exact ⟨g, e, o, s, a4, b1, h2, b2, fun s' hs' => by
    obtain ⟨g'', c', k1, k2⟩ := b4 s' hs'
    exact ⟨g', g'', c, c', b3, k1, k2⟩⟩

end Verif
