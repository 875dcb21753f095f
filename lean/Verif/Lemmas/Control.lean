import Verif.Lemmas.OperAdj
/-!
# `Controlled` of a gate
-/

set_option linter.unusedSectionVars false

namespace Verif

/-- The function returns the entries of the tensors. -/
def Evaluates {R : Type} [CommSemiring R] [Star R] (ctr : TVal R → Except Err (Arr R)) : Prop :=
  ∀ (t : TVal R) (d : List Nat), t.shape = some (d.map some) → TVal.Whole t →
    ∃ a, ctr t = .ok a ∧ a.shape = d ∧ ∀ idx, InRange d idx → a.get idx = t.tot idx

/-- Every qubit is an input and an output. -/
def Square (s : List (List Letter)) : Prop := ∀ w ∈ s, w = [.i, .o] ∨ w = [.c]

/-! ### Shapes with all qubits inputs and outputs -/

theorem places_all {P : List Letter → Prop} [DecidablePred P] {s : List (List Letter)} (h : ∀ w ∈ s, P w) :
    places P s = List.range s.length := by
  unfold places
  rw [List.filter_eq_self]
  intro k hk
  have := List.mem_range.1 hk
  rw [List.getElem?_eq_getElem this]
  simpa using h _ (List.getElem_mem this)

theorem Square.outs {s : List (List Letter)} (h : Square s) : outPlaces s = List.range s.length :=
  places_all fun w hw => by rcases h w hw with rfl | rfl <;> decide

theorem Square.ins {s : List (List Letter)} (h : Square s) : inPlaces s = List.range s.length :=
  places_all fun w hw => by rcases h w hw with rfl | rfl <;> decide

theorem Square.ctrlWord {s : List (List Letter)} (h : Square s) : ∀ w ∈ s, CtrlWord w := fun w hw => by
  rcases h w hw with rfl | rfl
  · exact Or.inr fun l hl => by simpa using hl
  · exact Or.inl rfl

theorem Square.cons {s : List (List Letter)} (h : Square s) : Square ([.c] :: s) := fun w hw => by
  rcases List.mem_cons.1 hw with rfl | hw
  · exact Or.inr rfl
  · exact h w hw

theorem ctrlPlaces_cons (s : List (List Letter)) : ctrlPlaces ([.c] :: s) = 0 :: (ctrlPlaces s).map Nat.succ := by
  unfold ctrlPlaces places
  rw [List.length_cons, List.range_succ_eq_map, List.filter_cons_of_pos (by simp), List.filter_map]
  rfl

theorem ctrlPlaces_lt {s : List (List Letter)} {k : Nat} (h : k ∈ ctrlPlaces s) : k < s.length := by
  unfold ctrlPlaces places at h
  exact List.mem_range.1 (List.mem_filter.1 h).1

/-- The qubits that are not controls. -/
def freePlaces (s : List (List Letter)) : List Nat := (List.range s.length).filter (· ∉ ctrlPlaces s)

theorem freePlaces_cons (s : List (List Letter)) : freePlaces ([.c] :: s) = (freePlaces s).map Nat.succ := by
  unfold freePlaces
  rw [List.length_cons, List.range_succ_eq_map, List.filter_cons_of_neg (by simp [ctrlPlaces_cons]), List.filter_map]
  congr 1
  refine List.filter_congr fun k _ => decide_eq_decide.2 ?_
  rw [ctrlPlaces_cons]
  simp

theorem free_length (s : List (List Letter)) : (ctrlPlaces s).length + (freePlaces s).length = s.length := by
  have h1 : ctrlPlaces s = (List.range s.length).filter (· ∈ ctrlPlaces s) := by
    conv_lhs => unfold ctrlPlaces places
    refine List.filter_congr fun k hk => decide_eq_decide.2 ?_
    rw [ctrlPlaces, mem_places, List.getElem?_eq_getElem (List.mem_range.1 hk)]
    simp
  have h2 := List.length_eq_length_filter_add (l := List.range s.length) (fun k => decide (k ∈ ctrlPlaces s))
  rw [List.length_range] at h2
  have h3 : freePlaces s = (List.range s.length).filter fun k => !decide (k ∈ ctrlPlaces s) := by
    unfold freePlaces
    refine List.filter_congr fun k _ => by simp
  rw [h3, ← h1] at *
  omega

theorem Square.rank {s : List (List Letter)} (h : Square s) :
    Oper.ctrlRank s = (ctrlPlaces s).length + (freePlaces s).length + (freePlaces s).length := by
  unfold Oper.ctrlRank
  rw [h.outs, h.ins]; rfl

theorem readAt_range {m k : Nat} {x z : List Nat} (hl : x.length = m) (hk : k < m) :
    readAt (List.range m) (x ++ z) k = x[k]?.getD 0 := by
  unfold readAt
  have : (List.range m).idxOf k = k := by
    have := (List.nodup_range (n := m)).idxOf_getElem k (by simpa using hk)
    simpa using this
  rw [this, List.getElem?_append_left (by omega)]

variable {R : Type} [CommSemiring R]

theorem Square.blockMat {s : List (List Letter)} (h : Square s) (T : List Nat → R) {x y : List Nat}
    (hx : x.length = s.length) (hy : y.length = s.length) :
    blockMat T s (x ++ y) = if ∀ k ∈ ctrlPlaces s, x[k]?.getD 0 = y[k]?.getD 0 then
      T ((ctrlPlaces s).map (fun k => x[k]?.getD 0) ++ (freePlaces s).map (fun k => x[k]?.getD 0) ++
        (freePlaces s).map (fun k => y[k]?.getD 0)) else 0 := by
  unfold Verif.blockMat
  rw [h.outs, h.ins, List.length_range]
  dsimp only
  have e : (x ++ y).drop s.length = y := by rw [← hx, List.drop_left]
  rw [e]
  have hu : ∀ k, k < s.length → readAt (List.range s.length) (x ++ y) k = x[k]?.getD 0 := fun k hk => readAt_range hx hk
  have hv : ∀ k, k < s.length → readAt (List.range s.length) y k = y[k]?.getD 0 := fun k hk => by
    have := readAt_range (z := []) hy hk
    rwa [List.append_nil] at this
  have hfree : ∀ k ∈ freePlaces s, k < s.length := fun k hk => List.mem_range.1 (List.mem_filter.1 hk).1
  refine if_congr (forall_congr' fun k => forall_congr' fun hk => ?_) ?_ rfl
  · rw [hu k (ctrlPlaces_lt hk), hv k (ctrlPlaces_lt hk)]
  · congr 1
    have e1 := List.map_congr_left (l := ctrlPlaces s) fun k hk => hu k (ctrlPlaces_lt hk)
    have e2 := List.map_congr_left (l := freePlaces s) fun k hk => hu k (hfree k hk)
    have e3 := List.map_congr_left (l := freePlaces s) fun k hk => hv k (hfree k hk)
    rw [e1]
    exact congrArg₂ (· ++ ·) (congrArg₂ (· ++ ·) rfl e2) e3

/-- A shape without controls. -/
theorem Square.blockMat_plain {s : List (List Letter)} (h : Square s) (hc : ∀ w ∈ s, w ≠ [.c]) (T : List Nat → R) {x y : List Nat}
    (hx : x.length = s.length) (hy : y.length = s.length) : Verif.blockMat T s (x ++ y) = T (x ++ y) := by
  have h0 : ctrlPlaces s = [] := by
    unfold ctrlPlaces places
    rw [List.filter_eq_nil_iff]
    intro k hk
    have := List.mem_range.1 hk
    rw [List.getElem?_eq_getElem this]
    simpa using hc _ (List.getElem_mem this)
  have h1 : freePlaces s = List.range s.length := by
    unfold freePlaces
    rw [h0, List.filter_eq_self]; simp
  rw [h.blockMat T hx hy, h0, h1]
  simp only [List.not_mem_nil, false_imp_iff, implies_true, if_true, List.map_nil, List.nil_append]
  have ex := map_range_get (l := x) (z := [])
  have ey := map_range_get (l := y) (z := [])
  rw [List.append_nil, hx] at ex
  rw [List.append_nil, hy] at ey
  rw [ex, ey]

theorem ext_places {s : List (List Letter)} {x y : List Nat} (hx : x.length = s.length) (hy : y.length = s.length)
    (h1 : ∀ k ∈ ctrlPlaces s, x[k]?.getD 0 = y[k]?.getD 0)
    (h2 : (freePlaces s).map (fun k => x[k]?.getD 0) = (freePlaces s).map (fun k => y[k]?.getD 0)) : x = y := by
  apply List.ext_getElem (by omega)
  intro k hk hk'
  have : x[k]?.getD 0 = y[k]?.getD 0 := by
    by_cases hc : k ∈ ctrlPlaces s
    · exact h1 k hc
    · exact List.map_inj_left.1 h2 k (List.mem_filter.2 ⟨List.mem_range.2 (by omega), by simpa using hc⟩)
  simpa [hk, hk'] using this

/-- The blocks of the controlled operation. -/
theorem Square.control {s : List (List Letter)} (h : Square s) {T T' : List Nat → R} {b : Nat} (hb : b < 2)
    (h1 : ∀ z, Bits z (Oper.ctrlRank s) → T' (b :: z) = T z)
    (h2 : ∀ z z1 z2, Bits z (ctrlPlaces s).length → Bits z1 (freePlaces s).length → Bits z2 (freePlaces s).length →
      T' ((1 - b) :: (z ++ z1 ++ z2)) = if z1 = z2 then 1 else 0)
    {idx : List Nat} (hi : Bits idx ((s.length + 1) + (s.length + 1))) :
    Verif.blockMat T' ([.c] :: s) idx = controlMat (Verif.blockMat T s) s.length b idx := by
  obtain ⟨hb1, hb2⟩ := hi.split
  set X := idx.take (s.length + 1) with hX
  set Y := idx.drop (s.length + 1) with hY
  have hXY : idx = X ++ Y := (List.take_append_drop _ _).symm
  obtain ⟨x0, x, hx⟩ : ∃ x0 x, X = x0 :: x := by
    cases hX' : X with
    | nil => have := hb1.1; rw [hX'] at this; simp at this
    | cons a l => exact ⟨a, l, rfl⟩
  obtain ⟨y0, y, hy⟩ : ∃ y0 y, Y = y0 :: y := by
    cases hY' : Y with
    | nil => have := hb2.1; rw [hY'] at this; simp at this
    | cons a l => exact ⟨a, l, rfl⟩
  have hxl : x.length = s.length := by have := hb1.1; rw [hx] at this; simpa using this
  have hyl : y.length = s.length := by have := hb2.1; rw [hy] at this; simpa using this
  have hx0 : x0 < 2 := hb1.2 x0 (by rw [hx]; simp)
  have hxb : ∀ k ∈ x, k < 2 := fun k hk => hb1.2 k (by rw [hx]; simp [hk])
  have hyb : ∀ k ∈ y, k < 2 := fun k hk => hb2.2 k (by rw [hy]; simp [hk])
  have hgx : ∀ k : Nat, x[k]?.getD 0 < 2 := fun k => by
    cases hk : x[k]? with
    | none => simp
    | some a => exact hxb a (List.mem_of_getElem? hk)
  have hgy : ∀ k : Nat, y[k]?.getD 0 < 2 := fun k => by
    cases hk : y[k]? with
    | none => simp
    | some a => exact hyb a (List.mem_of_getElem? hk)
  have hbits : ∀ (l : List Nat) (f : Nat → Nat), (∀ k, f k < 2) → Bits (l.map f) l.length := fun l f hf =>
    ⟨List.length_map _, fun b hb => by obtain ⟨k, -, rfl⟩ := List.mem_map.1 hb; exact hf k⟩
  have eL : Verif.blockMat T' ([.c] :: s) idx = if x0 = y0 ∧ ∀ k ∈ ctrlPlaces s, x[k]?.getD 0 = y[k]?.getD 0 then
      T' (x0 :: ((ctrlPlaces s).map (fun k => x[k]?.getD 0) ++ (freePlaces s).map (fun k => x[k]?.getD 0) ++
        (freePlaces s).map (fun k => y[k]?.getD 0))) else 0 := by
    rw [hXY, hx, hy, h.cons.blockMat T' (by simp [hxl]) (by simp [hyl]), ctrlPlaces_cons, freePlaces_cons]
    refine if_congr ?_ ?_ rfl
    · simp
    · simp [List.map_map, Function.comp_def]
  have eR : controlMat (Verif.blockMat T s) s.length b idx = if x0 = y0 then
      (if x0 = b then Verif.blockMat T s (x ++ y) else if x = y then 1 else 0) else 0 := by
    unfold controlMat
    simp only [← hX, ← hY]
    have : idx.head? = some x0 := by rw [hXY, hx]; rfl
    rw [this, hx, hy]
    exact if_congr (by simp) (if_congr (by simp) rfl (if_congr (by simp) rfl rfl)) rfl
  rw [eL, eR]
  by_cases e0 : x0 = y0
  · rw [if_pos e0]
    simp only [e0, true_and]
    by_cases e1 : y0 = b
    · subst e1
      rw [if_pos rfl, h.blockMat T hxl hyl]
      refine if_congr Iff.rfl (h1 _ ?_) rfl
      rw [h.rank]
      exact ((hbits _ _ hgx).append (hbits _ _ hgx)).append (hbits _ _ hgy)
    · rw [if_neg e1]
      have e2 : y0 = 1 - b := by omega
      rw [e2, h2 _ _ _ (hbits _ _ hgx) (hbits _ _ hgx) (hbits _ _ hgy)]
      by_cases exy : x = y
      · subst exy; simp
      · rw [if_neg exy]
        split
        · next hc => rw [if_neg fun hf => exy (ext_places hxl hyl hc hf)]
        · rfl
  · rw [if_neg (fun hh => e0 hh.1), if_neg e0]

/-! ### The identity -/

namespace Oper

theorem forLoop_append' {S A : Type} (f : S → A → S × Except Err Unit) (l l' : List A) {s s' : S}
    (h : forLoop f l s = (s', .ok ())) : forLoop f (l ++ l') s = forLoop f l' s' := by
  induction l generalizing s with
  | nil => cases h; rfl
  | cons x l ih =>
    rw [List.cons_append]
    rw [forLoop] at h ⊢
    rcases hf : f s x with ⟨s1, _ | _⟩
    · rw [hf] at h; cases h
    · rw [hf] at h; exact ih h

variable [StarRing R]

theorem identityNet_ok (n c : Nat) (hc : c ≤ n) : ∃ tn, identityNet (R := R) n c = (tn, .ok ()) ∧ HasDims tn (List.replicate n 2) ∧
    tn.nodes = [] ∧ tn.edges.keys.Nodup ∧ tn.openE = (List.range n ++ List.range' c (n - c)).map fun k : Nat => Nm.int k := by
  have first : ∀ n : Nat, ∃ tn : TN (TVal R), forLoop (fun tn (i : Nat) => tn.openEdge (.int i) (some 2)) (List.range n) {} = (tn, .ok ()) ∧
      HasDims tn (List.replicate n 2) ∧ tn.nodes = [] ∧ tn.edges.keys.Nodup ∧ tn.openE = (List.range n).map fun k : Nat => Nm.int k := by
    intro n
    induction n with
    | zero => exact ⟨{}, rfl, by simpa using hasDims_empty, rfl, by simp [Dict.keys], rfl⟩
    | succ n ih =>
      obtain ⟨tn, h1, h2, h3, h4, h5⟩ := ih
      have hnew : Nm.int n ∉ tn.edges.keys := by
        rw [h2.1]
        simp [rangeLegs]
      have hhas : tn.edges.has (Nm.int n) = false := by
        rw [← Bool.not_eq_true, Dict.has_iff]; exact hnew
      have hset : tn.edges.set (Nm.int n) ({ dim := some 2 } : EdgeRec) = tn.edges ++ [(Nm.int n, { dim := some 2 })] := Dict.set_eq_append hnew _
      refine ⟨{ tn with edges := tn.edges ++ [(Nm.int n, { dim := some 2 })], openE := tn.openE ++ [Nm.int n] }, ?_, ⟨?_, ?_⟩, h3, ?_, ?_⟩
      · rw [List.range_succ, forLoop_append' _ _ _ h1]
        simp [forLoop, TN.openEdge, hhas, TN.addEdge, TN.addEdgeNamed, hset]
      · intro e
        have := h2.1 e
        simp only [Dict.keys, List.map_append, List.mem_append, List.map_cons, List.map_nil, List.mem_singleton] at this ⊢
        rw [this]
        simp only [rangeLegs, List.length_replicate, List.range_succ, List.map_append, List.mem_append, List.map_cons, List.map_nil, List.mem_singleton]
      · intro k d hk
        rw [List.getElem?_replicate] at hk
        split at hk
        · next hlt =>
          cases hk
          by_cases e : k = n
          · subst e
            rw [← hset, Dict.get?_set, if_pos rfl]
          · rw [← hset, Dict.get?_set, if_neg (by simpa using fun h => e h.symm)]
            exact h2.2 k 2 (by rw [List.getElem?_replicate, if_pos (by omega)])
        · cases hk
      · show (Dict.keys (tn.edges ++ _)).Nodup
        rw [← hset]; exact Dict.nodup_keys_set h4 _ _
      · rw [h5, List.range_succ, List.map_append]; rfl
  obtain ⟨tn, h1, h2, h3, h4, h5⟩ := first n
  have second : ∀ (l : List Nat) (tn0 : TN (TVal R)), (∀ k ∈ l, Nm.int k ∈ tn0.edges.keys) →
      forLoop (fun tn (i : Nat) => tn.openEdge (.int i) none) l tn0 =
        ({ tn0 with openE := tn0.openE ++ l.map fun k : Nat => Nm.int k }, .ok ()) := by
    intro l
    induction l with
    | nil => intro tn0 _; simp [forLoop]
    | cons k l ih =>
      intro tn0 hk
      have : tn0.edges.has (Nm.int k) = true := Dict.has_iff.2 (hk k (by simp))
      have e : tn0.openEdge (.int k) none = ({ tn0 with openE := tn0.openE ++ [Nm.int k] }, .ok ()) := by
        unfold TN.openEdge; rw [if_pos this]
      rw [forLoop, e]
      dsimp only
      refine (ih { tn0 with openE := tn0.openE ++ [Nm.int k] } fun k' hk' => hk k' (by simp [hk'])).trans ?_
      simp
  refine ⟨{ tn with openE := tn.openE ++ (List.range' c (n - c)).map fun k : Nat => Nm.int k }, ?_, h2, h3, h4, ?_⟩
  · unfold identityNet
    rw [h1]
    exact second _ tn fun k hk => by
      rw [h2.1]
      have := List.mem_range'_1.1 hk
      simp only [rangeLegs, List.length_replicate]
      exact List.mem_map.2 ⟨k, List.mem_range.2 (by omega), rfl⟩
  · show tn.openE ++ _ = _
    rw [h5, List.map_append]

theorem identity_spec {ctr : TVal R → Except Err (Arr R)} (hctr : Evaluates ctr) (c f : Nat) :
    ∃ tn a, identityNet (R := R) (c + f) c = (tn, .ok ()) ∧ ctr (.ofTN tn) = .ok a ∧ a.shape = List.replicate (c + f + f) 2 ∧
      ∀ z z1 z2, Bits z c → Bits z1 f → Bits z2 f → a.get (z ++ z1 ++ z2) = if z1 = z2 then 1 else 0 := by
  obtain ⟨tn, h1, h2, h3, h4, h5⟩ := identityNet_ok (R := R) (c + f) c (by omega)
  rw [Nat.add_sub_cancel_left] at h5
  have hop' : ∀ k ∈ List.range (c + f) ++ List.range' c f, k < (List.replicate (c + f) 2).length := fun k hk => by
    rw [List.length_replicate]
    rcases List.mem_append.1 hk with hk | hk
    · exact List.mem_range.1 hk
    · have := List.mem_range'_1.1 hk; omega
  have hsh : (TVal.ofTN tn).shape = some ((List.replicate (c + f + f) 2).map some) := by
    rw [TVal.shape_range h2 h5 hop']
    congr 2
    have : ∀ k ∈ List.range (c + f) ++ List.range' c f, (List.replicate (c + f) 2)[k]?.getD 0 = 2 := fun k hk => by
      have := hop' k hk
      rw [List.length_replicate] at this
      rw [List.getElem?_replicate, if_pos this]; rfl
    rw [List.map_congr_left this, List.map_const']
    simp
  obtain ⟨a, k1, k2, k3⟩ := hctr _ _ hsh (TVal.whole_net fun p hp => by rw [h3] at hp; cases hp)
  refine ⟨tn, a, h1, k1, k2, fun z z1 z2 hz hz1 hz2 => ?_⟩
  rw [k3 _ ((hz.append hz1).append hz2).inRange, TVal.tot_ofTN]
  split
  · next e =>
    subst e
    have := TVal.open_at (f := TVal.tot) h4 h2 h5 (fun k hk => List.mem_append_left _ (by simpa using hk)) hop' (fs := [])
      (by unfold TN.factors; rw [h3]; rfl) (by simp) (idx := z ++ z1) (hz.append hz1).inRange
    have e1 : (List.range (c + f) ++ List.range' c f).map (fun k => (z ++ z1)[k]?.getD 0) = z ++ z1 ++ z1 := by
      rw [List.map_append]
      have a1 := map_range_get (l := z ++ z1) (z := [])
      have a2 := map_range'_get (l := z1) (z := z) (z' := [])
      rw [List.append_nil] at a2 a1
      rw [List.length_append, hz.1, hz1.1] at a1
      rw [hz.1, hz1.1] at a2
      rw [a1, a2]
    rw [e1] at this
    rw [this]; rfl
  · next e =>
    refine TVal.open_none fun b hb => e ?_
    rw [h5, List.map_map, List.map_append] at hb
    have hr : List.range (c + f) = List.range c ++ List.range' c f := by
      have := List.range'_append (s := 0) (m := c) (n := f) (step := 1)
      simp only [Nat.one_mul, Nat.zero_add] at this
      rw [List.range_eq_range', List.range_eq_range', this]
    rw [hr, List.map_append] at hb
    obtain ⟨b1, b2⟩ := List.append_inj hb (by simp [hz.1, hz1.1])
    obtain ⟨-, b3⟩ := List.append_inj b1 (by simp [hz.1])
    exact b3.symm.trans b2

/-! ### The controlled gate -/

theorem controlled_spec {ctr : TVal R → Except Err (Arr R)} (hctr : Evaluates ctr) {I : OpsIface (Oper R) (TVal R)} {op : Oper R}
    {s : List (List Letter)} {t : TVal R} {cond : Bool} (hp : I.pure op = .ok true) (hs : I.shape op = .ok s) (hsq : Square s)
    (hnc : ∀ c, op ≠ .circ c) (ht : controlOf I op = .ok t) (hd : t.shape = some (List.replicate (ctrlRank s) (some 2)))
    (hw : TVal.Whole t) :
    ∃ a, controlled ctr I op cond = .ok (.ctrl (.ten (some a)) ([.c] :: s) false none) ∧
      CtrlOk (.ten (some a)) ([.c] :: s) false ∧
      ∀ idx, Bits idx ((s.length + 1) + (s.length + 1)) →
        blockMat a.get ([.c] :: s) idx = controlMat (blockMat t.tot s) s.length (if cond then 1 else 0) idx := by
  rw [replicate_some] at hd
  obtain ⟨data, d1, d2, d3⟩ := hctr t _ hd hw
  obtain ⟨tn, ident, i1, i2, i3, i4⟩ := identity_spec hctr (ctrlPlaces s).length (freePlaces s).length
  rw [free_length] at i1
  have hsh : ident.shape = data.shape := by rw [i3, d2, hsq.rank]
  have hall : s.all (fun w => w == [.i, .o] || w == [.c]) = true := by
    rw [List.all_eq_true]
    intro w hw
    rcases hsq w hw with rfl | rfl <;> rfl
  have hrank : (indicesWith Letter.isC ([.c] :: s)).length + (indicesWith Letter.startsI ([.c] :: s)).length +
      (indicesWith Letter.endsO ([.c] :: s)).length = ctrlRank s + 1 := by
    rw [indicesWith_isC, indicesWith_startsI hsq.cons.ctrlWord, indicesWith_endsO hsq.cons.ctrlWord, hsq.cons.outs, hsq.cons.ins]
    have := hsq.cons.rank
    have e := hsq.rank
    have f1 : freePlaces ([.c] :: s) = (List.range ([.c] :: s).length).filter (· ∉ ctrlPlaces ([.c] :: s)) := rfl
    rw [← f1, freePlaces_cons, ctrlPlaces_cons]
    simp only [List.length_cons, List.length_map]
    omega
  have hrank' : ctrlRank ([.c] :: s) = ctrlRank s + 1 := by
    rw [hsq.cons.rank, hsq.rank, freePlaces_cons, ctrlPlaces_cons]
    simp only [List.length_cons, List.length_map]
    omega
  -- the two ways of stacking
  set a : Arr R := ⟨2 :: data.shape, if cond then fun idx => if idx.head? = some 0 then ident.get idx.tail else data.get idx.tail
    else fun idx => if idx.head? = some 0 then data.get idx.tail else ident.get idx.tail⟩ with ha
  have hstack : (if cond then stack ident data else stack data ident) = .ok a := by
    rw [ha]
    cases cond
    · simp [stack, hsh]
    · simp [stack, hsh]
  have hshape : (TVal.ten (some a)).shape = some (List.replicate (ctrlRank s + 1) (some 2)) := by
    simp [TVal.shape, ha, d2, List.replicate_succ]
  refine ⟨a, ?_, ⟨hsq.cons.ctrlWord, by rw [hrank']; exact hshape, by rw [TVal.Whole]; trivial, by simp⟩, fun idx hi => ?_⟩
  · unfold controlled
    rw [hp]
    dsimp only
    rw [hs]
    dsimp only
    rw [if_neg (by simp [hall])]
    split
    · next c => exact absurd rfl (hnc c)
    · rw [ht]
      dsimp only
      rw [d1]
      dsimp only
      rw [indicesWith_isC, i1]
      dsimp only
      rw [i2]
      dsimp only
      rw [hstack]
      dsimp only
      unfold newCtrl
      rw [hrank, if_pos hshape]
  · refine hsq.control (by cases cond <;> decide) (fun z hz => ?_) (fun z z1 z2 hz hz1 hz2 => ?_) hi
    · rw [← d3 z hz.inRange, ha]
      cases cond <;> simp
    · rw [← i4 z z1 z2 hz hz1 hz2, ha]
      cases cond <;> simp

end Oper

end Verif
