import Verif.Lemmas.Means
/-!
# Adjoints of gates, and superpositions
-/

set_option linter.unusedSectionVars false

namespace Verif

theorem addNode_whole {R : Type} {name : Option Nm} {i n : Nm} {es : Option (List Nm)} {t : TVal R} {o : Bool}
    {tn tn' : TN (TVal R)} (h : tn.addNode name i es t o = (tn', .ok n)) (hA : Circ.AllTen TVal.Whole tn)
    (hw : TVal.Whole t) : Circ.AllTen TVal.Whole tn' := by
  obtain ⟨-, -, legs, fr, E', -, h3, -⟩ := TN.addNode_ok h
  intro p hp
  rw [h3] at hp
  rcases Circ.mem_dict_set hp with rfl | hp
  · exact ⟨t, rfl, hw⟩
  · exact hA p hp

theorem allTen_empty {τ : Type} (P : τ → Prop) : Circ.AllTen P ({} : TN τ) := fun p hp => by simp at hp

theorem transpose_whole {R : Type} {i : Nm} {t t' : TVal R} {axes : List Nat} (h : TVal.transpose i t axes = .ok t')
    (hw : TVal.Whole t) : TVal.Whole t' := by
  unfold TVal.transpose at h
  split at h
  · cases h
  · next h1 =>
    have := addNode_whole h1 (allTen_empty _) hw
    split at h
    · cases h
    · cases h; exact TVal.whole_net this

theorem mul_whole {R : Type} {ia ib : Nm} {a b t' : TVal R} (h : TVal.mul ia a ib b = .ok t')
    (ha : TVal.Whole a) (hb : TVal.Whole b) : TVal.Whole t' := by
  unfold TVal.mul at h
  split at h
  · cases h
  · next h1 =>
    have := addNode_whole h1 (allTen_empty _) ha
    split at h
    · cases h
    · next h2 => cases h; exact TVal.whole_net (addNode_whole h2 this hb)

theorem map_range_get {l : List Nat} {z : List Nat} : (List.range l.length).map (fun k => (l ++ z)[k]?.getD 0) = l := by
  apply List.ext_getElem?
  intro k
  by_cases hk : k < l.length
  · simp [hk, List.getElem?_append_left]
  · simp [hk]

theorem map_range'_get {l z z' : List Nat} :
    (List.range' z.length l.length).map (fun k => (z ++ l ++ z')[k]?.getD 0) = l := by
  rw [List.range'_eq_map_range, List.map_map]
  have : ((fun k => (z ++ l ++ z')[k]?.getD 0) ∘ fun x => z.length + x) = fun k => (l ++ z')[k]?.getD 0 := by
    funext k
    simp only [Function.comp_apply, List.append_assoc]
    rw [List.getElem?_append_right (by omega), Nat.add_sub_cancel_left]
  rw [this, map_range_get]

theorem axes_perm (a b c : Nat) : (List.range a ++ List.range' (a + b) c ++ List.range' a b).Perm (List.range (a + b + c)) := by
  have e : List.range (a + b + c) = List.range a ++ (List.range' a b ++ List.range' (a + b) c) := by
    rw [List.range_eq_range', List.range_eq_range', ← List.append_assoc]
    have h1 := List.range'_append (s := 0) (m := a) (n := b) (step := 1)
    have h2 := List.range'_append (s := 0) (m := a + b) (n := c) (step := 1)
    simp only [Nat.one_mul, Nat.zero_add] at h1 h2
    rw [h1, h2]
  rw [e, List.append_assoc]
  exact List.Perm.append_left _ List.perm_append_comm

variable {R : Type} [CommSemiring R] [StarRing R]

/-- Conjugation and the exchange of two blocks of legs. -/
theorem conj_swap {t : TVal R} {a b c : Nat} (hs : t.shape = some (List.replicate (a + b + c) (some 2))) (hw : TVal.Whole t) :
    ∃ t1 t', TVal.conj t = .ok t1 ∧
      TVal.transpose (.int 0) t1 (List.range a ++ List.range' (a + b) c ++ List.range' a b) = .ok t' ∧ TVal.Whole t' ∧
      t'.shape = some (List.replicate (a + b + c) (some 2)) ∧
      ∀ x y z, Bits x a → Bits y b → Bits z c → t'.tot (x ++ z ++ y) = star (t.tot (x ++ y ++ z)) := by
  obtain ⟨t1, h1⟩ := TVal.conj_total t hw
  have hw1 := TVal.whole_conj t t1 h1 hw
  have hs1 := (TVal.conj_spec t t1 h1).1.trans hs
  rw [replicate_some] at hs1
  obtain ⟨t', h2, h3, h4⟩ := TVal.transpose_tot (ident := .int 0) (axes := List.range a ++ List.range' (a + b) c ++ List.range' a b)
    hs1 (by simpa using axes_perm a b c)
  refine ⟨t1, t', h1, h2, transpose_whole h2 hw1, ?_, fun x y z hx hy hz => ?_⟩
  · rw [h3, List.map_map]
    congr 1
    have : ∀ k ∈ List.range a ++ List.range' (a + b) c ++ List.range' a b,
        (some ∘ fun k => (List.replicate (a + b + c) 2)[k]?.getD 0) k = some 2 := fun k hk => by
      have := List.mem_range.1 ((axes_perm a b c).mem_iff.1 hk)
      simp only [Function.comp_apply]
      rw [List.getElem?_replicate, if_pos this]; rfl
    rw [List.map_congr_left this, List.map_const']
    simp only [List.length_append, List.length_range, List.length_range']
    congr 1; omega
  · have := h4 (x ++ y ++ z) (((hx.append hy).append hz).inRange)
    rw [TVal.conj_tot t t1 h1] at this
    rw [← this, List.map_append, List.map_append]
    have e1 : (List.range a).map (fun k => (x ++ y ++ z)[k]?.getD 0) = x := by
      rw [← hx.1, List.append_assoc]; exact map_range_get
    have e2 : (List.range' (a + b) c).map (fun k => (x ++ y ++ z)[k]?.getD 0) = z := by
      have := map_range'_get (l := z) (z := x ++ y) (z' := [])
      rw [List.append_nil, List.length_append, hx.1, hy.1, hz.1] at this
      exact this
    have e3 : (List.range' a b).map (fun k => (x ++ y ++ z)[k]?.getD 0) = y := by
      have := map_range'_get (l := y) (z := x) (z' := z)
      rwa [hx.1, hy.1] at this
    rw [e1, e2, e3]

namespace Oper

/-! ### `PureOperation` -/

/-- A `PureOperation` as the constructor makes them: strings over `i` and `o`, data of the size demanded; the marks of
the basis states and measurements are right, and an operation declared self-adjoint is. -/
structure PureOk (p : PureRec R) : Prop where
  words : ∀ w ∈ p.shape, PlainWord w
  dims : p.data.shape = some (List.replicate ((outPlaces p.shape).length + (inPlaces p.shape).length) (some 2))
  whole : TVal.Whole p.data
  mark : ∀ b k, p.mark = some (b, k) → k < 2 ∧ p.shape = (if b then [[.o]] else [[.i]]) ∧
    ∀ x < 2, p.data.tot [x] = if x = k then 1 else 0
  herm : p.selfAdj = true → flipShape p.shape = p.shape ∧
    ConjTransposed p.data.tot p.data.tot (inPlaces p.shape).length (outPlaces p.shape).length

theorem adjPure_spec {p : PureRec R} (hp : PureOk p) (hsa : p.selfAdj = false) :
    ∃ p', adjPure p none = .ok (.pure p' none) ∧ PureOk p' ∧ p'.shape = flipShape p.shape ∧ p'.mark = none ∧
      ConjTransposed p'.data.tot p.data.tot (inPlaces p.shape).length (outPlaces p.shape).length := by
  obtain ⟨t1, t', h1, h2, h3, h4, h5⟩ := conj_swap (t := p.data) (a := 0) (b := (outPlaces p.shape).length)
    (c := (inPlaces p.shape).length) (by simpa using hp.dims) hp.whole
  simp only [List.range_zero, List.nil_append, Nat.zero_add] at h2 h4
  have hfw : ∀ w ∈ flipShape p.shape, PlainWord w := fun w hw => by
    obtain ⟨w', hw', rfl⟩ := List.mem_map.1 hw
    exact (hp.words w' hw').flip
  refine ⟨{ data := t', shape := flipShape p.shape }, ?_, ⟨hfw, ?_, h3, (fun b k h => by cases h), (fun h => by cases h)⟩, rfl, rfl,
    fun x y hx hy hxb hyb => ?_⟩
  · unfold adjPure
    rw [if_neg (by simp [hsa])]
    dsimp only
    rw [flipPure_ok hp.words]
    dsimp only
    rw [h1]
    dsimp only
    rw [indicesWith_startsI_plain hp.words, indicesWith_endsO_plain hp.words, List.range_eq_range', h2]
    dsimp only
    unfold newPure
    rw [indicesWith_startsI_plain hfw, indicesWith_endsO_plain hfw, inPlaces_flip, outPlaces_flip, if_pos h4]
  · rw [outPlaces_flip, inPlaces_flip, Nat.add_comm]; exact h4
  · have := h5 [] y x ⟨rfl, by simp⟩ ⟨hy, hyb⟩ ⟨hx, hxb⟩
    simpa using this

/-! ### `ControlledOperation` -/

/-- A `ControlledOperation` as the constructor makes them: strings `c` or over `i` and `o`, data of the size demanded;
if it is declared self-adjoint, it is. -/
structure CtrlOk (data : TVal R) (s : List (List Letter)) (selfAdj : Bool) : Prop where
  words : ∀ w ∈ s, CtrlWord w
  dims : data.shape = some (List.replicate (ctrlRank s) (some 2))
  whole : TVal.Whole data
  herm : selfAdj = true → flipShape s = s ∧
    ConjTransposed (blockMat data.tot s) (blockMat data.tot s) (inPlaces s).length (outPlaces s).length

theorem ctrlRank_flip (s : List (List Letter)) : ctrlRank (flipShape s) = ctrlRank s := by
  unfold ctrlRank
  rw [ctrlPlaces_flip, outPlaces_flip, inPlaces_flip]
  omega

theorem readAt_append {K : Type} [DecidableEq K] {ks : List K} {x y : List Nat} (hl : x.length = ks.length) {k : K} (hk : k ∈ ks) :
    readAt ks (x ++ y) k = readAt ks x k := by
  unfold readAt
  have := List.idxOf_lt_length_iff.2 hk
  rw [List.getElem?_append_left (by omega)]

theorem blockMat_flip {T T' : List Nat → R} {s : List (List Letter)}
    (h : ∀ x y z, Bits x (ctrlPlaces s).length → Bits y ((outPlaces s).filter (· ∉ ctrlPlaces s)).length →
      Bits z ((inPlaces s).filter (· ∉ ctrlPlaces s)).length → T' (x ++ z ++ y) = star (T (x ++ y ++ z))) :
    ConjTransposed (blockMat T' (flipShape s)) (blockMat T s) (inPlaces s).length (outPlaces s).length := by
  intro x y hx hy hxb hyb
  unfold blockMat
  rw [outPlaces_flip, inPlaces_flip, ctrlPlaces_flip]
  have e1 : (x ++ y).drop (inPlaces s).length = y := by rw [← hx, List.drop_left]
  have e2 : (y ++ x).drop (outPlaces s).length = x := by rw [← hy, List.drop_left]
  rw [e1, e2]
  set u := readAt (outPlaces s) y with hu
  set v := readAt (inPlaces s) x with hv
  have u1 : ∀ k ∈ outPlaces s, readAt (outPlaces s) (y ++ x) k = u k := fun k hk => readAt_append hy hk
  have v1 : ∀ k ∈ inPlaces s, readAt (inPlaces s) (x ++ y) k = v k := fun k hk => readAt_append hx hk
  have hub : ∀ k, u k < 2 := readAt_bits hyb
  have hvb : ∀ k, v k < 2 := readAt_bits hxb
  dsimp only
  have c1 : (∀ k ∈ ctrlPlaces s, readAt (inPlaces s) (x ++ y) k = u k) ↔
      ∀ k ∈ ctrlPlaces s, readAt (outPlaces s) (y ++ x) k = v k := by
    refine forall_congr' fun k => forall_congr' fun hk => ?_
    rw [v1 k (ctrlPlaces_sub hk).2, u1 k (ctrlPlaces_sub hk).1]
    exact eq_comm
  by_cases hc : ∀ k ∈ ctrlPlaces s, readAt (outPlaces s) (y ++ x) k = v k
  · rw [if_pos hc, if_pos (c1.2 hc)]
    have m1 : (ctrlPlaces s).map (readAt (inPlaces s) (x ++ y)) = (ctrlPlaces s).map u :=
      List.map_congr_left fun k hk => c1.2 hc k hk
    have m2 : (ctrlPlaces s).map (readAt (outPlaces s) (y ++ x)) = (ctrlPlaces s).map u :=
      List.map_congr_left fun k hk => u1 k (ctrlPlaces_sub hk).1
    have m3 : ((inPlaces s).filter (· ∉ ctrlPlaces s)).map (readAt (inPlaces s) (x ++ y)) =
        ((inPlaces s).filter (· ∉ ctrlPlaces s)).map v :=
      List.map_congr_left fun k hk => v1 k (List.mem_filter.1 hk).1
    have m4 : ((outPlaces s).filter (· ∉ ctrlPlaces s)).map (readAt (outPlaces s) (y ++ x)) =
        ((outPlaces s).filter (· ∉ ctrlPlaces s)).map u :=
      List.map_congr_left fun k hk => u1 k (List.mem_filter.1 hk).1
    rw [m1, m2, m3, m4]
    have hbits : ∀ (l : List Nat) (f : Nat → Nat), (∀ k, f k < 2) → Bits (l.map f) l.length := fun l f hf =>
      ⟨List.length_map _, fun b hb => by obtain ⟨k, -, rfl⟩ := List.mem_map.1 hb; exact hf k⟩
    exact h _ _ _ (hbits _ u hub) (hbits _ u hub) (hbits _ v hvb)
  · rw [if_neg hc, if_neg fun h => hc (c1.1 h), star_zero]

theorem adjCtrl_spec {data : TVal R} {s : List (List Letter)} (hp : CtrlOk data s false) :
    ∃ data', adjCtrl data s false none = .ok (.ctrl data' (flipShape s) false none) ∧ CtrlOk data' (flipShape s) false ∧
      ConjTransposed (blockMat data'.tot (flipShape s)) (blockMat data.tot s) (inPlaces s).length (outPlaces s).length := by
  obtain ⟨t1, t', h1, h2, h3, h4, h5⟩ := conj_swap (t := data) (a := (ctrlPlaces s).length)
    (b := ((outPlaces s).filter (· ∉ ctrlPlaces s)).length) (c := ((inPlaces s).filter (· ∉ ctrlPlaces s)).length)
    hp.dims hp.whole
  have hfw : ∀ w ∈ flipShape s, CtrlWord w := fun w hw => by
    obtain ⟨w', hw', rfl⟩ := List.mem_map.1 hw
    exact (hp.words w' hw').flip
  refine ⟨t', ?_, ⟨hfw, by rw [ctrlRank_flip]; exact h4, h3, fun h => by cases h⟩, blockMat_flip h5⟩
  unfold adjCtrl
  dsimp only
  rw [if_neg (by simp), flipCtrl_ok hp.words]
  dsimp only
  rw [h1]
  dsimp only
  rw [indicesWith_startsI hp.words, indicesWith_endsO hp.words, indicesWith_isC, h2]
  dsimp only
  unfold newCtrl
  rw [indicesWith_startsI hfw, indicesWith_endsO hfw, indicesWith_isC, inPlaces_flip, outPlaces_flip, ctrlPlaces_flip, if_pos h4]

/-! ### `SuperPosition` -/

theorem compatible_same {S : List (Option Nat)} {ss : List (List (Option Nat))} (h : ∀ t ∈ ss, t = S) : Compatible ss := by
  intro t ht t' ht'
  rw [h t ht, h t' ht']
  exact ⟨rfl, fun i d d' h1 h2 => by rw [h1] at h2; simpa using h2⟩

theorem whole_terms {ts : List (Nm × TVal R)} (h : ∀ p ∈ ts, TVal.Whole p.2) : TVal.WholeTerms ts := by
  induction ts with
  | nil => rw [TVal.WholeTerms]; trivial
  | cons p ts ih =>
    obtain ⟨n, t⟩ := p
    rw [TVal.WholeTerms]
    exact ⟨h (n, t) (by simp), ih fun p hp => h p (by simp [hp])⟩

theorem mergeDims_self (d : List Nat) : TVal.mergeDims (d.map some) (d.map some) = some (d.map some) := by
  induction d with
  | nil => rfl
  | cons a d ih => simp [TVal.mergeDims, ih]

theorem supLoop_spec {I : OpsIface (Oper R) (TVal R)} {M : Oper R → List Nat → R} {N : Nat} {S : List (Option Nat)}
    (hS : S = List.replicate N (some 2)) : ∀ (l : List (R × Oper R)) (i : Nat) (ts : TSum (TVal R)), ts.Good →
    (∀ p ∈ l, ∃ t, I.tensor p.2 = .ok t ∧ t.shape = some S ∧ TVal.Whole t ∧ ∀ idx, Bits idx N → t.tot idx = M p.2 idx) →
    (∀ p ∈ ts.terms, p.2.shape = some S ∧ TVal.Whole p.2) → (ts.terms.map Prod.fst = (List.range i).map fun k : Nat => Nm.int k) →
    ∃ ts', supLoop I l i ts = .ok ts' ∧ (∀ p ∈ ts'.terms, p.2.shape = some S ∧ TVal.Whole p.2) ∧
      (ts'.terms.map Prod.fst = (List.range (i + l.length)).map fun k : Nat => Nm.int k) ∧
      ∀ idx, Bits idx N → TVal.totSum ts'.terms idx = TVal.totSum ts.terms idx + (l.map fun p => p.1 * M p.2 idx).sum
  | [], i, ts, _, _, h2, h3 => ⟨ts, rfl, h2, h3, fun idx _ => by simp⟩
  | (c, op) :: l, i, ts, hg, h1, h2, h3 => by
    obtain ⟨t, k1, k2, k3, k4⟩ := h1 (c, op) (by simp)
    dsimp only at k1 k4
    have k2' := k2
    rw [hS, replicate_some] at k2'
    obtain ⟨t', m1, m2, m3⟩ := TVal.mul_scalar_tot (ia := .int 0) (ib := .int 1) (c := c) (by decide) k2'
    rw [← replicate_some, ← hS] at m2
    have hfresh : Nm.int i ∉ ts.terms.map Prod.fst := by rw [h3]; simp
    have hw' : TVal.Whole t' := mul_whole m1 k3 (by unfold TVal.scalar; rw [TVal.Whole]; trivial)
    have hall : ∀ p ∈ ts.terms ++ [(Nm.int i, t')], p.2.shape = some S ∧ TVal.Whole p.2 := fun p hp => by
      rcases List.mem_append.1 hp with hp | hp
      · exact h2 p hp
      · simp only [List.mem_singleton] at hp; subst hp; exact ⟨m2, hw'⟩
    obtain ⟨ts1, n1, n2, n3⟩ := TVal.addTerm_total (n := .int i) (t := t') hg hfresh (compatible_same (S := S) fun s hs => by
      obtain ⟨p, hp, hs⟩ := List.mem_filterMap.1 hs
      have := (hall p hp).1
      rw [show HasShape.shape p.2 = p.2.shape from rfl, this] at hs
      exact (Option.some.inj hs).symm)
    obtain ⟨ts', q1, q2, q3, q4⟩ := supLoop_spec hS l (i + 1) ts1 n3 (fun p hp => h1 p (by simp [hp])) (by rw [n2]; exact hall) (by
      rw [n2, List.map_append, h3, List.range_succ, List.map_append]; rfl)
    refine ⟨ts', ?_, q2, by rw [q3, List.length_cons]; congr 2; omega, fun idx hi => ?_⟩
    · rw [supLoop, k1]
      dsimp only
      rw [m1]
      dsimp only
      rw [n1]
      exact q1
    · have happ : ∀ (a : List (Nm × TVal R)), TVal.totSum (a ++ [(Nm.int i, t')]) idx = TVal.totSum a idx + t'.tot idx := fun a => by
        induction a with
        | nil => simp [TVal.totSum]
        | cons p a ih =>
          obtain ⟨n, x⟩ := p
          rw [List.cons_append, TVal.totSum, TVal.totSum, ih, add_assoc]
      rw [q4 idx hi, n2, happ, m3 idx hi.inRange, k4 idx hi, List.map_cons, List.sum_cons, add_assoc]

theorem termsShape_same {d : List Nat} : ∀ (ts : List (Nm × TVal R)) (c : Option (List (Option Nat))),
    (∀ p ∈ ts, p.2.shape = some (d.map some)) → (c = none ∨ c = some (d.map some)) → (ts ≠ [] ∨ c ≠ none) →
    TVal.termsShape ts c = some (d.map some)
  | [], c, _, h2, h3 => by
    rcases h2 with rfl | rfl
    · simp at h3
    · rw [TVal.termsShape]
  | (n, t) :: ts, c, h1, h2, _ => by
    have h4 : t.shape = some (d.map some) := h1 (n, t) (by simp)
    have ih := termsShape_same ts (some (d.map some)) (fun p hp => h1 p (by simp [hp])) (Or.inr rfl) (Or.inr (by simp))
    rcases h2 with rfl | rfl
    · unfold TVal.termsShape; rw [h4]; exact ih
    · unfold TVal.termsShape; rw [h4]
      dsimp only
      rw [mergeDims_self]; exact ih

end Oper

end Verif
