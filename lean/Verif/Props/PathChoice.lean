import Verif.Model.PathChoice
import Verif.Props.Orders
/-! # C80: which path `subscript_to_path` returns, and the cost of the scheme made from the paths -/

namespace Verif

variable {E : Type} {r : Resolver} {search : PathSearch E} {n : Nat} {x : E} {p : List (List Nat)} {c : Cost}

/-- **C80.** The path is one that opt_einsum found for the step, and the cost is that of this path. -/
theorem c80_found (h : subscriptToPath r search n x = some (p, c)) : ∃ m, search m x = some (p, c.s, c.t) ∧ c.k = 0 := by
  unfold subscriptToPath at h
  cases ha : search .auto x with
  | none => rw [ha] at h; simp at h
  | some f =>
    rw [ha] at h
    dsimp only at h
    cases hm : r.second n f.2.1 with
    | none =>
      rw [hm] at h
      simp only [Option.some.injEq, Prod.mk.injEq] at h
      obtain ⟨rfl, rfl⟩ := h
      exact ⟨.auto, ha, rfl⟩
    | some m =>
      rw [hm] at h
      simp only [Option.map_eq_some_iff, Prod.mk.injEq] at h
      obtain ⟨q, hq, rfl, rfl⟩ := h
      exact ⟨m, hq, rfl⟩

/-- **C80.** No second search is made for at most two operands, for a cheap first path, and for `dp` operands or more. -/
theorem c80_first {f : List (List Nat) × Nat × Nat} (ha : search .auto x = some f)
    (h : n ≤ 2 ∨ f.2.1 ≤ r.thres ∨ (r.optimal ≤ n ∧ r.dp ≤ n)) : subscriptToPath r search n x = some (f.1, ⟨f.2.1, f.2.2, 0⟩) := by
  have hs : r.second n f.2.1 = none := by
    unfold Resolver.second
    split_ifs <;> first | rfl | omega
  unfold subscriptToPath
  rw [ha]
  dsimp only
  rw [hs]

/-- **C80.** An expensive step with more than two operands is searched again: by brute force for fewer than `optimal` operands, else by
dynamic programming for fewer than `dp`. -/
theorem c80_second {f : List (List Nat) × Nat × Nat} (ha : search .auto x = some f) (hn : 2 < n) (hc : r.thres < f.2.1) :
    (n < r.optimal → subscriptToPath r search n x = (search .optimal x).map fun p => (p.1, ⟨p.2.1, p.2.2, 0⟩)) ∧
    (r.optimal ≤ n → n < r.dp → subscriptToPath r search n x = (search .dp x).map fun p => (p.1, ⟨p.2.1, p.2.2, 0⟩)) := by
  have h1 : n < r.optimal → r.second n f.2.1 = some .optimal := fun h => by
    unfold Resolver.second
    rw [if_pos ⟨hn, hc⟩, if_pos h]
  have h2 : r.optimal ≤ n → n < r.dp → r.second n f.2.1 = some .dp := fun h h' => by
    unfold Resolver.second
    rw [if_pos ⟨hn, hc⟩, if_neg (by omega), if_pos h']
  constructor
  · intro h
    unfold subscriptToPath
    rw [ha]
    dsimp only
    rw [h1 h]
  · intro h h'
    unfold subscriptToPath
    rw [ha]
    dsimp only
    rw [h2 h h']

/-- **C80.** If the advanced searches never do worse than the default one, the cost is at most that of the default path, and if brute force
finds a cheapest path, then for fewer than `optimal` (more than two) operands the path is a cheapest one or costs at most `thres`. -/
theorem c80_cheap {f : List (List Nat) × Nat × Nat} (ha : search .auto x = some f)
    (hb : ∀ m q, search m x = some q → q.2.1 ≤ f.2.1) (h : subscriptToPath r search n x = some (p, c)) :
    c.s ≤ f.2.1 ∧ ((∀ m q q', search .optimal x = some q → search m x = some q' → q.2.1 ≤ q'.2.1) → 2 < n → n < r.optimal →
      c.s ≤ r.thres ∨ ∀ m q, search m x = some q → c.s ≤ q.2.1) := by
  obtain ⟨m, hm, -⟩ := c80_found h
  refine ⟨hb m _ hm, fun ho h2 h3 => ?_⟩
  by_cases hc : f.2.1 ≤ r.thres
  · exact .inl ((hb m _ hm).trans hc)
  · rw [(c80_second ha h2 (by omega)).1 h3] at h
    simp only [Option.map_eq_some_iff, Prod.mk.injEq] at h
    obtain ⟨q, hq, rfl, rfl⟩ := h
    exact .inr fun m q' hq' => ho m q q' hq hq'

theorem schemeLoop_spec : ∀ (l : List (OrderStep × E)) (k : Int) (c0 : Cost) {o : List OrderStep} {c : Cost},
    schemeLoop r search l k c0 = some (o, c) →
    ∃ rs : List (List (List Nat) × Cost), rs.length = l.length ∧
      (∀ (i : Nat) (s : OrderStep) (x : E) (q : List (List Nat) × Cost), l[i]? = some (s, x) → rs[i]? = some q → subscriptToPath r search s.1.length x = some q) ∧
      c.s = c0.s + (rs.map fun q => q.2.s).sum ∧ c.t = rs.foldl (fun t q => max t q.2.t) c0.t ∧
      ∀ path : OrderStep → List (List Nat), (∀ (i : Nat) (s : OrderStep) (x : E) (q : List (List Nat) × Cost), l[i]? = some (s, x) → rs[i]? = some q → path s = q.1) →
        resolveLoop path (l.map Prod.fst) k = some o
  | [], k, c0, o, c, h => by
    simp only [schemeLoop, Option.some.injEq, Prod.mk.injEq] at h
    obtain ⟨rfl, rfl⟩ := h
    exact ⟨[], rfl, by simp, by simp, by simp, fun _ _ => rfl⟩
  | (s, x) :: l, k, c0, o, c, h => by
    rw [schemeLoop] at h
    cases hp : subscriptToPath r search s.1.length x with
    | none => rw [hp] at h; simp at h
    | some res =>
      rw [hp] at h
      dsimp only at h
      cases hq : pathToPaired s res.1 k with
      | none => rw [hq] at h; simp at h
      | some w =>
        obtain ⟨new, k'⟩ := w
        rw [hq] at h
        simp only [Option.map_eq_some_iff, Prod.mk.injEq] at h
        obtain ⟨⟨o', c'⟩, h1, rfl, rfl⟩ := h
        obtain ⟨rs, a1, a2, a3, a4, a5⟩ := schemeLoop_spec l k' _ h1
        refine ⟨res :: rs, by simp [a1], ?_, ?_, ?_, ?_⟩
        · intro i s' x' q g1 g2
          cases i with
          | zero => simp only [List.getElem?_cons_zero, Option.some.injEq, Prod.mk.injEq] at g1 g2; obtain ⟨rfl, rfl⟩ := g1; rw [hp, g2]
          | succ i => exact a2 i s' x' q (by simpa using g1) (by simpa using g2)
        · rw [a3]; simp only [Cost.iadd, List.map_cons, List.sum_cons]; omega
        · rw [a4]; simp only [Cost.iadd, List.foldl_cons]
        · intro path hpath
          rw [List.map_cons, resolveLoop, hpath 0 s x res rfl rfl, hq]
          dsimp only
          rw [a5 path fun i s' x' q g1 g2 => hpath (i + 1) s' x' q (by simpa using g1) (by simpa using g2)]
          rfl

/-- **C80.** The scheme: one path for every step, the order is the one these paths resolve to (C32), its cost is the sum of the costs of the
paths, and its memory their largest. -/
theorem c80_scheme {order : List OrderStep} {subs : List E} {o : List OrderStep} {c : Cost} (hl : order.length = subs.length)
    (h : orderToScheme r search order subs = some (o, c)) :
    ∃ rs : List (List (List Nat) × Cost), rs.length = order.length ∧
      (∀ (i : Nat) (s : OrderStep) (x : E) (q : List (List Nat) × Cost), order[i]? = some s → subs[i]? = some x → rs[i]? = some q → subscriptToPath r search s.1.length x = some q) ∧
      c.s = (rs.map fun q => q.2.s).sum ∧ c.t = rs.foldl (fun t q => max t q.2.t) 0 ∧
      ∀ path : OrderStep → List (List Nat), (∀ (i : Nat) (s : OrderStep) (q : List (List Nat) × Cost), order[i]? = some s → rs[i]? = some q → path s = q.1) →
        resolveOrder path order = some o := by
  obtain ⟨rs, a1, a2, a3, a4, a5⟩ := schemeLoop_spec _ _ _ h
  have hz : (order.zip subs).length = order.length := by rw [List.length_zip]; omega
  refine ⟨rs, a1.trans hz, fun i s x q h1 h2 h3 => a2 i s x q (List.getElem?_zip_eq_some.2 ⟨h1, h2⟩) h3, ?_, a4, fun path hp => ?_⟩
  · rw [a3]; simp [Cost.zero]
  · have := a5 path fun i s x q g1 g2 => hp i s q (List.getElem?_zip_eq_some.1 g1).1 g2
    rw [List.map_fst_zip (by omega)] at this
    exact this

/-- Three tensors in one step; brute force finds a cheaper path than the default method. -/
def searchCase : PathSearch Unit
  | .auto, _ => some ([[0, 1], [0, 1]], 10 ^ 9, 5)
  | _, _ => some ([[1, 2], [0, 1]], 10 ^ 7, 4)

/-- The hypotheses of C80 are met: a step that is searched again, and the scheme made from it. -/
example : searchCase .auto () = some ([[0, 1], [0, 1]], 10 ^ 9, 5) ∧ (∀ m q, searchCase m () = some q → q.2.1 ≤ 10 ^ 9) ∧
    (∀ m q q', searchCase .optimal () = some q → searchCase m () = some q' → q.2.1 ≤ q'.2.1) ∧
    subscriptToPath {} searchCase 3 () = some ([[1, 2], [0, 1]], ⟨10 ^ 7, 4, 0⟩) ∧
    (orderToScheme {} searchCase [([.str "a", .str "b", .str "c"], .str "#")] [()]).map (fun p => (p.1.length, p.2)) = some (2, ⟨10 ^ 7, 4, 0⟩) := by
  refine ⟨rfl, ?_, ?_, by decide +kernel, by decide +kernel⟩
  · intro m q h
    cases m <;> cases h <;> decide
  · intro m q q' h h'
    cases h
    cases m <;> cases h' <;> decide

/-- The documentation calls `optimal` and `dp` the maximum numbers of tensors for which the searches are used; with exactly that many, the
weaker method is used. -/
theorem c80_limit_violated : ({} : Resolver).second 8 (10 ^ 9) = some .dp ∧ ({} : Resolver).second 20 (10 ^ 9) = none := by decide +kernel

end Verif
