import Verif.Lemmas.UctMake
import Mathlib.Data.List.Chain
/-!
# `UndirectedContractionTree`: the stem is a heaviest path
-/

namespace Verif

open UT

namespace UT

variable {n : Nat} {adj : Nat → List Nat} {w : Nat → Nat}

/-- The paths from the top. -/
def Down : UT → List Nat → Prop
  | leaf v, P => P = [v]
  | node v l r, P => P = [v] ∨ ∃ Q, P = v :: Q ∧ (Down l Q ∨ Down r Q)

/-- The heaviest way down. -/
def down (w : Nat → Nat) : UT → Nat
  | leaf _ => 0
  | node v l r => max (down w l) (down w r) + w v

/-- The heaviest path. -/
def best (w : Nat → Nat) : UT → Nat
  | leaf _ => 0
  | node v l r => max (max (best w l) (best w r)) (down w l + down w r + w v)

theorem Shape.closed {p : Nat} {T : UT} (h : Shape n adj p T) : ∀ x ∈ T.labels, ∀ y ∈ adj x, y ∈ T.labels ∨ (y = p ∧ x = T.top) := by
  induction T generalizing p with
  | leaf v =>
    intro x hx y hy
    simp only [labels, List.mem_singleton] at hx
    subst hx
    rw [h.2, List.mem_singleton] at hy
    exact Or.inr ⟨hy, rfl⟩
  | node v l r ihl ihr =>
    intro x hx y hy
    simp only [labels, List.mem_cons, List.mem_append] at hx ⊢
    rcases hx with rfl | hx | hx
    · have := h.2.1.subset hy
      simp only [List.mem_cons, List.not_mem_nil, or_false] at this
      rcases this with e | e | e
      · exact Or.inr ⟨e, rfl⟩
      · exact Or.inl (Or.inr (Or.inl (e ▸ l.top_mem)))
      · exact Or.inl (Or.inr (Or.inr (e ▸ r.top_mem)))
    · rcases ihl h.2.2.1 x hx y hy with e | e
      · exact Or.inl (Or.inr (Or.inl e))
      · exact Or.inl (Or.inl e.1)
    · rcases ihr h.2.2.2 x hx y hy with e | e
      · exact Or.inl (Or.inr (Or.inr e))
      · exact Or.inl (Or.inl e.1)

/-- A path that does not leave through the top stays. -/
theorem Shape.stays {p : Nat} {T : UT} (h : Shape n adj p T) : ∀ (P : List Nat) (x : Nat), x ∈ T.labels →
    (x :: P).IsChain (fun x y => y ∈ adj x) → p ∉ P → ∀ y ∈ x :: P, y ∈ T.labels := by
  intro P
  induction P with
  | nil => intro x hx _ _ y hy; rw [List.mem_singleton] at hy; exact hy ▸ hx
  | cons z P ih =>
    intro x hx hc hp y hy
    rw [List.isChain_cons_cons] at hc
    rcases List.mem_cons.1 hy with rfl | hy
    · exact hx
    · refine ih z ?_ hc.2 (fun e => hp (List.mem_cons_of_mem _ e)) y hy
      rcases h.closed x hx z hc.1 with e | e
      · exact e
      · exact absurd (e.1 ▸ List.mem_cons_self) hp

/-- A path from the top is a way down. -/
theorem Shape.down {p : Nat} {T : UT} (h : Shape n adj p T) : ∀ Q, IsGraphPath adj (T.top :: Q) → p ∉ Q → Down T (T.top :: Q) := by
  induction T generalizing p with
  | leaf v =>
    intro Q hQ hp
    cases Q with
    | nil => rfl
    | cons y Q =>
      have h1 := (List.isChain_cons_cons.1 hQ.1).1
      simp only [top] at h1
      rw [h.2, List.mem_singleton] at h1
      exact absurd (h1 ▸ List.mem_cons_self) hp
  | node v l r ihl ihr =>
    intro Q hQ hp
    cases Q with
    | nil => exact Or.inl rfl
    | cons y Q =>
      obtain ⟨h1, h2⟩ := List.isChain_cons_cons.1 hQ.1
      have hnd := hQ.2
      rw [List.nodup_cons] at hnd
      have hv : v ∉ Q := fun e => hnd.1 (List.mem_cons_of_mem _ e)
      have hy := h.2.1.subset h1
      simp only [List.mem_cons, List.not_mem_nil, or_false] at hy
      rcases hy with e | e | e
      · exact absurd (e ▸ List.mem_cons_self) hp
      · subst e
        exact Or.inr ⟨_, rfl, Or.inl (ihl h.2.2.1 Q ⟨h2, hnd.2⟩ hv)⟩
      · subst e
        exact Or.inr ⟨_, rfl, Or.inr (ihr h.2.2.2 Q ⟨h2, hnd.2⟩ hv)⟩

theorem Down.head {T : UT} {P : List Nat} (h : Down T P) : ∃ Q, P = T.top :: Q := by
  cases T with
  | leaf v => exact ⟨[], h⟩
  | node v l r =>
    rcases h with h | ⟨Q, h, _⟩
    · exact ⟨[], h⟩
    · exact ⟨Q, h⟩

theorem Down.mem {T : UT} {P : List Nat} (h : Down T P) : ∀ x ∈ P, x ∈ T.labels := by
  induction T generalizing P with
  | leaf v =>
    intro x hx
    rw [show P = [v] from h] at hx
    exact hx
  | node v l r ihl ihr =>
    intro x hx
    simp only [labels, List.mem_cons, List.mem_append]
    rcases h with h | ⟨Q, h, hd⟩
    · rw [h] at hx
      exact Or.inl (by simpa using hx)
    · rw [h, List.mem_cons] at hx
      rcases hx with hx | hx
      · exact Or.inl hx
      · rcases hd with hd | hd
        · exact Or.inr (Or.inl (ihl hd x hx))
        · exact Or.inr (Or.inr (ihr hd x hx))

/-- A way down is a path. -/
theorem Down.path {p : Nat} {T : UT} (h : Shape n adj p T) (hn : T.labels.Nodup) {P : List Nat} (hd : Down T P) : IsGraphPath adj P := by
  induction T generalizing p P with
  | leaf v =>
    rw [show P = [v] from hd]
    exact ⟨List.isChain_singleton _, by simp⟩
  | node v l r ihl ihr =>
    rw [labels, List.nodup_cons, List.nodup_append', List.mem_append, not_or] at hn
    rcases hd with hd | ⟨Q, rfl, hd⟩
    · rw [hd]
      exact ⟨List.isChain_singleton _, by simp⟩
    · rcases hd with hd | hd
      · obtain ⟨a1, a2⟩ := ihl h.2.2.1 hn.2.1 hd
        obtain ⟨Q', rfl⟩ := hd.head
        exact ⟨List.isChain_cons_cons.2 ⟨h.2.1.symm.subset (by simp), a1⟩, List.nodup_cons.2 ⟨fun e => hn.1.1 (hd.mem v e), a2⟩⟩
      · obtain ⟨a1, a2⟩ := ihr h.2.2.2 hn.2.2.1 hd
        obtain ⟨Q', rfl⟩ := hd.head
        exact ⟨List.isChain_cons_cons.2 ⟨h.2.1.symm.subset (by simp), a1⟩, List.nodup_cons.2 ⟨fun e => hn.1.2 (hd.mem v e), a2⟩⟩

/-- There is one way down to each vertex. -/
theorem Down.uniq {T : UT} (hn : T.labels.Nodup) {P Q : List Nat} (hP : Down T P) (hQ : Down T Q) (he : P.getLast? = Q.getLast?) : P = Q := by
  induction T generalizing P Q with
  | leaf v => rw [show P = [v] from hP, show Q = [v] from hQ]
  | node v l r ihl ihr =>
    rw [labels, List.nodup_cons, List.nodup_append', List.mem_append, not_or] at hn
    have last : ∀ {T : UT} {P : List Nat}, Down T P → ∃ x ∈ T.labels, (v :: P).getLast? = some x ∧ P.getLast? = some x := by
      intro T P h
      obtain ⟨Q, rfl⟩ := h.head
      exact ⟨(T.top :: Q).getLast (by simp), h.mem _ (List.getLast_mem _), by rw [List.getLast?_cons_cons, List.getLast?_eq_getLast_of_ne_nil],
        by rw [List.getLast?_eq_getLast_of_ne_nil]⟩
    rcases hP with rfl | ⟨P, rfl, hP⟩ <;> rcases hQ with rfl | ⟨Q, rfl, hQ⟩
    · rfl
    · exfalso
      rcases hQ with hQ | hQ <;> obtain ⟨x, h1, h2, _⟩ := last hQ <;> rw [h2] at he <;> simp at he <;> subst he
      · exact hn.1.1 h1
      · exact hn.1.2 h1
    · exfalso
      rcases hP with hP | hP <;> obtain ⟨x, h1, h2, _⟩ := last hP <;> rw [h2] at he <;> simp at he <;> subst he
      · exact hn.1.1 h1
      · exact hn.1.2 h1
    · congr 1
      rcases hP with hP | hP <;> rcases hQ with hQ | hQ <;> obtain ⟨x, h1, h2, h3⟩ := last hP <;> obtain ⟨y, k1, k2, k3⟩ := last hQ <;>
        rw [h2, k2, Option.some.injEq] at he <;> subst he
      · exact ihl hn.2.1 hP hQ (by rw [h3, k3])
      · exact absurd k1 (hn.2.2.2 h1)
      · exact absurd h1 (hn.2.2.2 k1)
      · exact ihr hn.2.2.1 hP hQ (by rw [h3, k3])

theorem listWeight_cons (w : Nat → Nat) (x : Nat) (P : List Nat) : listWeight w (x :: P) = w x + listWeight w P := by
  simp [listWeight]

theorem listWeight_append (w : Nat → Nat) (P Q : List Nat) : listWeight w (P ++ Q) = listWeight w P + listWeight w Q := by
  simp [listWeight]

theorem listWeight_reverse (w : Nat → Nat) (P : List Nat) : listWeight w P.reverse = listWeight w P := by
  unfold listWeight
  rw [List.map_reverse, List.sum_reverse]

theorem Down.weight {T : UT} (h0 : ∀ x ∈ T.leaves, w x = 0) {P : List Nat} (h : Down T P) : listWeight w P ≤ down w T := by
  induction T generalizing P with
  | leaf v =>
    rw [show P = [v] from h]
    simp [listWeight, h0 v (by simp [leaves])]
  | node v l r ihl ihr =>
    have hl := fun P => ihl (P := P) fun x hx => h0 x (by simp [leaves, hx])
    have hr := fun P => ihr (P := P) fun x hx => h0 x (by simp [leaves, hx])
    rw [UT.down]
    rcases h with rfl | ⟨Q, rfl, hd | hd⟩
    · simp [listWeight]
    · have := hl Q hd
      rw [listWeight_cons]
      omega
    · have := hr Q hd
      rw [listWeight_cons]
      omega

theorem isGraphPath_reverse {P : List Nat} (hs : ∀ x ∈ P, ∀ y ∈ adj x, x ∈ adj y) (h : IsGraphPath adj P) : IsGraphPath adj P.reverse :=
  ⟨List.isChain_reverse.2 (h.1.imp_of_mem_imp fun x y hx _ hxy => hs x hx y hxy), List.nodup_reverse.2 h.2⟩

/-- No path is heavier than the heaviest. -/
theorem Shape.best {p : Nat} {T : UT} (h : Shape n adj p T) (hn : T.labels.Nodup) (hs : ∀ x ∈ T.labels, ∀ y ∈ adj x, x ∈ adj y)
    (h0 : ∀ x ∈ T.leaves, w x = 0) (hp : p ∉ T.labels) {P : List Nat} (hP : IsGraphPath adj P) (hm : ∀ x ∈ P, x ∈ T.labels) :
    listWeight w P ≤ best w T := by
  induction T generalizing p P with
  | leaf v =>
    have : ∀ x ∈ P, w x = 0 := fun x hx => h0 x (hm x hx)
    unfold listWeight
    rw [List.map_congr_left this]
    simp
  | node v l r ihl ihr =>
    have hn' := hn
    rw [labels, List.nodup_cons, List.nodup_append', List.mem_append, not_or] at hn
    have ml : ∀ x ∈ l.labels, x ∈ (UT.node v l r).labels := fun x hx => by simp [labels, hx]
    have mr : ∀ x ∈ r.labels, x ∈ (UT.node v l r).labels := fun x hx => by simp [labels, hx]
    rw [UT.best]
    by_cases hv : v ∈ P
    · obtain ⟨A, B, rfl⟩ := List.append_of_mem hv
      have hB : Down (UT.node v l r) (v :: B) := h.down B ⟨(List.isChain_split.1 hP.1).2, (List.nodup_append'.1 hP.2).2.1⟩
        (fun e => hp (hm p (by simp [e])))
      have hA' : IsGraphPath adj (A ++ [v]) := ⟨(List.isChain_split.1 hP.1).1, by
        have := hP.2
        rw [List.append_cons] at this
        exact (List.nodup_append'.1 this).1⟩
      have hA'' := isGraphPath_reverse (fun x hx => hs x (hm x (by
        simp only [List.mem_append, List.mem_cons, List.not_mem_nil, or_false] at hx ⊢
        tauto))) hA'
      rw [List.reverse_append, List.reverse_singleton, List.singleton_append] at hA''
      have hA : Down (UT.node v l r) (v :: A.reverse) := h.down A.reverse hA'' (fun e => hp (hm p (by
        rw [List.mem_reverse] at e
        simp [e])))
      have hw : listWeight w (A ++ v :: B) = listWeight w A.reverse + listWeight w B + w v := by
        rw [listWeight_append, listWeight_cons, listWeight_reverse]
        omega
      rw [hw]
      have side : ∀ {Q : List Nat}, Down (UT.node v l r) (v :: Q) → Q = [] ∨ (l.top ∈ Q ∧ listWeight w Q ≤ UT.down w l) ∨
          (r.top ∈ Q ∧ listWeight w Q ≤ UT.down w r) := by
        intro Q hQ
        rcases hQ with hQ | ⟨Q', hQ, hd⟩
        · left; simpa using hQ
        · rw [List.cons.injEq] at hQ
          obtain ⟨_, rfl⟩ := hQ
          rcases hd with hd | hd
          · obtain ⟨Q', e⟩ := hd.head
            exact Or.inr (Or.inl ⟨by rw [e]; simp, hd.weight fun x hx => h0 x (by simp [leaves, hx])⟩)
          · obtain ⟨Q', e⟩ := hd.head
            exact Or.inr (Or.inr ⟨by rw [e]; simp, hd.weight fun x hx => h0 x (by simp [leaves, hx])⟩)
      have disj : ∀ x, x ∈ A.reverse → x ∈ B → False := by
        intro x h1 h2
        rw [List.mem_reverse] at h1
        exact (List.nodup_append'.1 hP.2).2.2 h1 (List.mem_cons_of_mem _ h2)
      have z : listWeight w [] = 0 := rfl
      refine Nat.le_trans (Nat.add_le_add_right ?_ _) (Nat.le_max_right _ _)
      rcases side hA with hA | ⟨a1, a2⟩ | ⟨a1, a2⟩ <;> rcases side hB with hB | ⟨b1, b2⟩ | ⟨b1, b2⟩
      · rw [hA, hB, z]; omega
      · rw [hA, z]; omega
      · rw [hA, z]; omega
      · rw [hB, z]; omega
      · exact absurd b1 (disj _ a1)
      · omega
      · rw [hB, z]; omega
      · omega
      · exact absurd b1 (disj _ a1)
    · refine Nat.le_trans ?_ (Nat.le_max_left _ _)
      cases P with
      | nil => exact Nat.zero_le _
      | cons x Q =>
        have hx := hm x (by simp)
        rw [labels, List.mem_cons, List.mem_append] at hx
        have hvQ : v ∉ Q := fun e => hv (List.mem_cons_of_mem _ e)
        rcases hx with e | hx | hx
        · exact absurd (e ▸ List.mem_cons_self) hv
        · refine Nat.le_trans ?_ (Nat.le_max_left _ _)
          exact ihl h.2.2.1 hn.2.1 (fun x hx => hs x (ml x hx)) (fun x hx => h0 x (by simp [leaves, hx])) hn.1.1 hP
            (h.2.2.1.stays Q x hx hP.1 hvQ)
        · refine Nat.le_trans ?_ (Nat.le_max_right _ _)
          exact ihr h.2.2.2 hn.2.2.1 (fun x hx => hs x (mr x hx)) (fun x hx => h0 x (by simp [leaves, hx])) hn.1.2 hP
            (h.2.2.2.stays Q x hx hP.1 hvQ)

theorem join_paths {v : Nat} {P0 P1 : List Nat} (h0 : IsGraphPath adj (v :: P0)) (h1 : IsGraphPath adj (v :: P1))
    (hs : ∀ x ∈ v :: P0, ∀ y ∈ adj x, x ∈ adj y) (hd : ∀ x ∈ P0, x ∉ P1) : IsGraphPath adj (P0.reverse ++ v :: P1) := by
  have := isGraphPath_reverse hs h0
  rw [List.reverse_cons] at this
  refine ⟨List.isChain_split.2 ⟨this.1, h1.1⟩, ?_⟩
  rw [List.nodup_append']
  refine ⟨(List.nodup_append'.1 this.2).1, h1.2, fun x hx hx' => ?_⟩
  rw [List.mem_reverse] at hx
  rcases List.mem_cons.1 hx' with rfl | hx'
  · exact (List.nodup_cons.1 h0.2).1 hx
  · exact hd x hx hx'

end UT

namespace Uct

/-- The weight of a vertex: the cost of the contraction. -/
def wt (g : Uct) (x : Nat) : Nat := if x < g.n then 0 else (g.ncost x).getD 0

/-- `detect_stem_in_subtree` finds the heaviest paths. -/
theorem stemBelow_spec {g : Uct} (hc : ∃ Ru Rv, Cut g.n g.adj g.root.1 g.root.2 Ru Rv)
    (hn : ∀ y, g.n ≤ y → y < 2 * g.n - 2 → (g.ncost y).isSome) {p : Nat} {T : UT} (hs : Shape g.n g.adj p T) (hnd : T.labels.Nodup)
    (hl : ∀ x ∈ T.labels, x < 2 * g.n - 2) {fuel : Nat} (hf : T.labels.length ≤ fuel) :
    ∃ e0 e1 z P Q, stemBelow g fuel p T.top = some ((T.best g.wt, e0, e1), (T.down g.wt, z)) ∧
      IsGraphPath g.adj P ∧ (∀ x ∈ P, x ∈ T.labels) ∧ P.head? = some e0 ∧ P.getLast? = some e1 ∧ listWeight g.wt P = T.best g.wt ∧
      Down T Q ∧ Q.getLast? = some z ∧ listWeight g.wt Q = T.down g.wt ∧ e0 ∈ T.leaves ∧ e1 ∈ T.leaves ∧ z ∈ T.leaves := by
  induction T generalizing p fuel with
  | leaf v =>
    obtain ⟨f, rfl⟩ : ∃ f, fuel = f + 1 := ⟨fuel - 1, by simp [labels] at hf; omega⟩
    have hw : listWeight g.wt [v] = 0 := by simp [listWeight, wt, hs.1]
    refine ⟨v, v, v, [v], [v], ?_, ⟨List.isChain_singleton _, by simp⟩, by simp [labels], rfl, rfl, hw, rfl, rfl, hw, by simp [leaves]⟩
    show stemBelow g (f + 1) p v = _
    rw [stemBelow, if_pos hs.1]
    rfl
  | node v l r ihl ihr =>
    have hfl : l.labels.length + r.labels.length + 1 ≤ fuel := by
      rw [labels, List.length_cons, List.length_append] at hf
      exact hf
    obtain ⟨f, rfl⟩ : ∃ f, fuel = f + 1 := ⟨fuel - 1, by omega⟩
    have hv : v < 2 * g.n - 2 := hl v (by simp [labels])
    obtain ⟨cv, hcv⟩ := Option.isSome_iff_exists.1 (hn v hs.1 hv)
    have hwv : g.wt v = cv := by
      unfold wt
      rw [if_neg (Nat.not_lt.2 hs.1), hcv]
      rfl
    obtain ⟨_, _, hc⟩ := hc
    have hnb := hc.nbrs hv
    rw [if_neg (Nat.not_lt.2 hs.1)] at hnb
    obtain ⟨a, b, e1, _, e3, e4⟩ := filter_two hnb.1 hnb.2.1 (hs.2.1.symm.subset (by simp) : p ∈ g.adj v)
    have hperm : [a, b].Perm [l.top, r.top] := (List.perm_cons p).1 (e4.symm.trans hs.2.1)
    have hnd' := hnd
    rw [labels, List.nodup_cons, List.nodup_append', List.mem_append, not_or] at hnd'
    have hcase : (l.top = a ∧ r.top = b) ∨ (r.top = a ∧ l.top = b) := by
      have ha := hperm.subset (List.mem_cons_self (a := a) (l := [b]))
      have hb := hperm.subset (show b ∈ [a, b] by simp)
      simp only [List.mem_cons, List.not_mem_nil, or_false] at ha hb
      rcases ha with ha | ha
      · rcases hb with hb | hb
        · exact absurd (ha.trans hb.symm) e3
        · exact Or.inl ⟨ha.symm, hb.symm⟩
      · rcases hb with hb | hb
        · exact Or.inr ⟨ha.symm, hb.symm⟩
        · exact absurd (ha.trans hb.symm) e3
    -- the two children in the order of the neighbours
    obtain ⟨A, B, hA, hB, hAB, sA, sB, ndA, ndB, hAv, hBv, hdis, mA, mB, fA, fB, hbest, hdown, dA, dB, IA, IB⟩ :
        ∃ A B : UT, A.top = a ∧ B.top = b ∧ ((A = l ∧ B = r) ∨ (A = r ∧ B = l)) ∧ Shape g.n g.adj v A ∧ Shape g.n g.adj v B ∧
          A.labels.Nodup ∧ B.labels.Nodup ∧ v ∉ A.labels ∧ v ∉ B.labels ∧ (∀ x ∈ A.labels, x ∉ B.labels) ∧
          (∀ x ∈ A.labels, x ∈ (UT.node v l r).labels) ∧ (∀ x ∈ B.labels, x ∈ (UT.node v l r).labels) ∧
          A.labels.length ≤ f ∧ B.labels.length ≤ f ∧
          (UT.node v l r).best g.wt = max (max (A.best g.wt) (B.best g.wt)) (A.down g.wt + B.down g.wt + cv) ∧
          (UT.node v l r).down g.wt = max (A.down g.wt) (B.down g.wt) + cv ∧
          (∀ Q, Down A Q → Down (UT.node v l r) (v :: Q)) ∧ (∀ Q, Down B Q → Down (UT.node v l r) (v :: Q)) ∧
          (∃ e0 e1 z P Q, stemBelow g f v A.top = some ((A.best g.wt, e0, e1), (A.down g.wt, z)) ∧
            IsGraphPath g.adj P ∧ (∀ x ∈ P, x ∈ A.labels) ∧ P.head? = some e0 ∧ P.getLast? = some e1 ∧ listWeight g.wt P = A.best g.wt ∧
            Down A Q ∧ Q.getLast? = some z ∧ listWeight g.wt Q = A.down g.wt ∧ e0 ∈ A.leaves ∧ e1 ∈ A.leaves ∧ z ∈ A.leaves) ∧
          (∃ e0 e1 z P Q, stemBelow g f v B.top = some ((B.best g.wt, e0, e1), (B.down g.wt, z)) ∧
            IsGraphPath g.adj P ∧ (∀ x ∈ P, x ∈ B.labels) ∧ P.head? = some e0 ∧ P.getLast? = some e1 ∧ listWeight g.wt P = B.best g.wt ∧
            Down B Q ∧ Q.getLast? = some z ∧ listWeight g.wt Q = B.down g.wt ∧ e0 ∈ B.leaves ∧ e1 ∈ B.leaves ∧ z ∈ B.leaves) := by
      have ml : ∀ x ∈ l.labels, x ∈ (UT.node v l r).labels := fun x hx => by simp [labels, hx]
      have mr : ∀ x ∈ r.labels, x ∈ (UT.node v l r).labels := fun x hx => by simp [labels, hx]
      have Il := ihl hs.2.2.1 hnd'.2.1 (fun x hx => hl x (ml x hx)) (fuel := f) (by omega)
      have Ir := ihr hs.2.2.2 hnd'.2.2.1 (fun x hx => hl x (mr x hx)) (fuel := f) (by omega)
      rcases hcase with ⟨t1, t2⟩ | ⟨t1, t2⟩
      · exact ⟨l, r, t1, t2, Or.inl ⟨rfl, rfl⟩, hs.2.2.1, hs.2.2.2, hnd'.2.1, hnd'.2.2.1, hnd'.1.1, hnd'.1.2, fun x h1 h2 => hnd'.2.2.2 h1 h2,
          ml, mr, by omega, by omega, by rw [UT.best, hwv], by rw [UT.down, hwv], fun Q h => Or.inr ⟨Q, rfl, Or.inl h⟩,
          fun Q h => Or.inr ⟨Q, rfl, Or.inr h⟩, Il, Ir⟩
      · exact ⟨r, l, t1, t2, Or.inr ⟨rfl, rfl⟩, hs.2.2.2, hs.2.2.1, hnd'.2.2.1, hnd'.2.1, hnd'.1.2, hnd'.1.1, fun x h1 h2 => hnd'.2.2.2 h2 h1,
          mr, ml, by omega, by omega, by rw [UT.best, hwv]; omega, by rw [UT.down, hwv]; omega, fun Q h => Or.inr ⟨Q, rfl, Or.inr h⟩,
          fun Q h => Or.inr ⟨Q, rfl, Or.inl h⟩, Ir, Il⟩
    clear ihl ihr hcase hperm
    obtain ⟨p0, q0, z0, P0, Q0, x1, x2, x3, x4, x5, x6, x7, x8, x9, xa, xb, xc⟩ := IA
    obtain ⟨p1, q1, z1, P1, Q1, y1, y2, y3, y4, y5, y6, y7, y8, y9, ya, yb, yc⟩ := IB
    rw [hA] at x1
    rw [hB] at y1
    have lA : ∀ x ∈ A.leaves, x ∈ (UT.node v l r).leaves := by
      intro x hx
      rcases hAB with ⟨rfl, rfl⟩ | ⟨rfl, rfl⟩ <;> simp [leaves, hx]
    have lB : ∀ x ∈ B.leaves, x ∈ (UT.node v l r).leaves := by
      intro x hx
      rcases hAB with ⟨rfl, rfl⟩ | ⟨rfl, rfl⟩ <;> simp [leaves, hx]
    show ∃ e0 e1 z P Q, stemBelow g (f + 1) p v = _ ∧ _
    rw [stemBelow, if_neg (Nat.not_lt.2 hs.1), e1, hcv]
    simp only [x1, y1]
    rw [hbest, hdown]
    -- the way down
    obtain ⟨z, Q, d1, d2, d3, d4, d5⟩ : ∃ z Q, ((if A.down g.wt > B.down g.wt ∨ (A.down g.wt = B.down g.wt ∧ z0 ≥ z1) then (A.down g.wt, z0) else (B.down g.wt, z1)) :
          Nat × Nat) = (max (A.down g.wt) (B.down g.wt), z) ∧ Down (UT.node v l r) Q ∧ Q.getLast? = some z ∧
          listWeight g.wt Q = max (A.down g.wt) (B.down g.wt) + cv ∧ z ∈ (UT.node v l r).leaves := by
      split
      · refine ⟨z0, v :: Q0, by congr 1; omega, dA _ x7, ?_, ?_, lA _ xc⟩
        · obtain ⟨Q', rfl⟩ := x7.head
          rw [List.getLast?_cons_cons]; exact x8
        · rw [listWeight_cons, x9, hwv]; omega
      · refine ⟨z1, v :: Q1, by congr 1; omega, dB _ y7, ?_, ?_, lB _ yc⟩
        · obtain ⟨Q', rfl⟩ := y7.head
          rw [List.getLast?_cons_cons]; exact y8
        · rw [listWeight_cons, y9, hwv]; omega
    have hsym : ∀ x ∈ (UT.node v l r).labels, ∀ y ∈ g.adj x, x ∈ g.adj y := fun x hx y hy => ((hc.nbrs (hl x hx)).2.2 y hy).1
    -- the path through this vertex
    have hj : IsGraphPath g.adj (Q0.reverse ++ v :: Q1) := join_paths ((dA _ x7).path hs hnd) ((dB _ y7).path hs hnd)
      (fun x hx => hsym x ((dA _ x7).mem x hx)) (fun x h1 h2 => hdis x (x7.mem x h1) (y7.mem x h2))
    have hjm : ∀ x ∈ Q0.reverse ++ v :: Q1, x ∈ (UT.node v l r).labels := by
      intro x hx
      rcases List.mem_append.1 hx with hx | hx
      · exact mA x (x7.mem x (List.mem_reverse.1 hx))
      · exact (dB _ y7).mem x hx
    have hjh : (Q0.reverse ++ v :: Q1).head? = some z0 := by
      obtain ⟨Q', hQ'⟩ := x7.head
      rw [List.head?_append_of_ne_nil _ (by rw [hQ']; simp), List.head?_reverse, x8]
    have hjl : (Q0.reverse ++ v :: Q1).getLast? = some z1 := by
      obtain ⟨Q', hQ'⟩ := y7.head
      rw [List.getLast?_append, hQ', List.getLast?_cons_cons, ← hQ', y8]
      rfl
    have hjw : listWeight g.wt (Q0.reverse ++ v :: Q1) = A.down g.wt + B.down g.wt + cv := by
      rw [listWeight_append, listWeight_reverse, listWeight_cons, x9, y9, hwv]; omega
    have m0 : ∀ x ∈ P0, x ∈ (UT.node v l r).labels := fun x hx => mA x (x3 x hx)
    have m1 : ∀ x ∈ P1, x ∈ (UT.node v l r).labels := fun x hx => mB x (y3 x hx)
    simp only [d1]
    by_cases k1 : A.best g.wt ≥ B.best g.wt
    · rw [if_pos k1]
      by_cases k2 : A.best g.wt ≥ A.down g.wt + B.down g.wt + cv
      · have hm : max (max (A.best g.wt) (B.best g.wt)) (A.down g.wt + B.down g.wt + cv) = A.best g.wt := by omega
        rw [if_pos k2, hm]
        exact ⟨_, _, _, P0, Q, rfl, x2, m0, x4, x5, x6, d2, d3, d4, lA _ xa, lA _ xb, d5⟩
      · have hm : max (max (A.best g.wt) (B.best g.wt)) (A.down g.wt + B.down g.wt + cv) = A.down g.wt + B.down g.wt + cv := by omega
        rw [if_neg k2, hm]
        exact ⟨_, _, _, _, Q, rfl, hj, hjm, hjh, hjl, hjw, d2, d3, d4, lA _ xc, lB _ yc, d5⟩
    · rw [if_neg k1]
      by_cases k2 : B.best g.wt ≥ A.down g.wt + B.down g.wt + cv
      · have hm : max (max (A.best g.wt) (B.best g.wt)) (A.down g.wt + B.down g.wt + cv) = B.best g.wt := by omega
        rw [if_pos k2, hm]
        exact ⟨_, _, _, P1, Q, rfl, y2, m1, y4, y5, y6, d2, d3, d4, lB _ ya, lB _ yb, d5⟩
      · have hm : max (max (A.best g.wt) (B.best g.wt)) (A.down g.wt + B.down g.wt + cv) = A.down g.wt + B.down g.wt + cv := by omega
        rw [if_neg k2, hm]
        exact ⟨_, _, _, _, Q, rfl, hj, hjm, hjh, hjl, hjw, d2, d3, d4, lA _ xc, lB _ yc, d5⟩

/-- `shortest_path` goes the way down. -/
theorem treePath_spec {g : Uct} (hc : ∃ Ru Rv, Cut g.n g.adj g.root.1 g.root.2 Ru Rv) {p : Nat} {T : UT} (hs : Shape g.n g.adj p T)
    (hl : ∀ x ∈ T.labels, x < 2 * g.n - 2) {fuel : Nat} (hf : T.labels.length ≤ fuel) (b : Nat) :
    (b ∈ T.labels → ∃ P, treePath g b fuel T.top (some p) = some P ∧ Down T P ∧ P.getLast? = some b) ∧
    (b ∉ T.labels → treePath g b fuel T.top (some p) = none) := by
  induction T generalizing p fuel with
  | leaf v =>
    obtain ⟨f, rfl⟩ : ∃ f, fuel = f + 1 := ⟨fuel - 1, by simp [labels] at hf; omega⟩
    simp only [top, labels, List.mem_singleton]
    constructor
    · intro e
      refine ⟨[v], ?_, rfl, by rw [e]; rfl⟩
      rw [treePath, if_pos e.symm]
    · intro e
      rw [treePath, if_neg (fun h => e h.symm), hs.2]
      simp
  | node v l r ihl ihr =>
    have hfl : l.labels.length + r.labels.length + 1 ≤ fuel := by
      rw [labels, List.length_cons, List.length_append] at hf
      exact hf
    obtain ⟨f, rfl⟩ : ∃ f, fuel = f + 1 := ⟨fuel - 1, by omega⟩
    have hv : v < 2 * g.n - 2 := hl v (by simp [labels])
    have hc' := hc
    obtain ⟨_, _, hc'⟩ := hc'
    have hnb := hc'.nbrs hv
    rw [if_neg (Nat.not_lt.2 hs.1)] at hnb
    obtain ⟨a, d, e1, _, e3, e4⟩ := filter_two hnb.1 hnb.2.1 (hs.2.1.symm.subset (by simp) : p ∈ g.adj v)
    have hperm : [a, d].Perm [l.top, r.top] := (List.perm_cons p).1 (e4.symm.trans hs.2.1)
    have hcase : (l.top = a ∧ r.top = d) ∨ (r.top = a ∧ l.top = d) := by
      have ha := hperm.subset (List.mem_cons_self (a := a) (l := [d]))
      have hb := hperm.subset (show d ∈ [a, d] by simp)
      simp only [List.mem_cons, List.not_mem_nil, or_false] at ha hb
      rcases ha with ha | ha
      · rcases hb with hb | hb
        · exact absurd (ha.trans hb.symm) e3
        · exact Or.inl ⟨ha.symm, hb.symm⟩
      · rcases hb with hb | hb
        · exact Or.inr ⟨ha.symm, hb.symm⟩
        · exact absurd (ha.trans hb.symm) e3
    have hfil : (g.adj v).filter (fun c => decide (some c ≠ some p)) = [a, d] := by
      rw [← e1]
      apply List.filter_congr
      intro x _
      simp
    have Il := ihl hs.2.2.1 (fun x hx => hl x (by simp [labels, hx])) (fuel := f) (by omega)
    have Ir := ihr hs.2.2.2 (fun x hx => hl x (by simp [labels, hx])) (fuel := f) (by omega)
    have step : treePath g b (f + 1) v (some p) = if v = b then some [v] else
        (((treePath g b f a (some v)).map (v :: ·)).or ((treePath g b f d (some v)).map (v :: ·))) := by
      rw [treePath]
      split
      · rfl
      · rw [hfil]
        simp only [List.findSome?]
        cases treePath g b f a (some v) <;> cases treePath g b f d (some v) <;> rfl
    show (b ∈ (UT.node v l r).labels → ∃ P, treePath g b (f + 1) v (some p) = some P ∧ Down (UT.node v l r) P ∧ P.getLast? = some b) ∧
      (b ∉ (UT.node v l r).labels → treePath g b (f + 1) v (some p) = none)
    rw [step]
    by_cases hvb : v = b
    · rw [if_pos hvb]
      exact ⟨fun _ => ⟨[v], rfl, Or.inl rfl, by rw [hvb]; rfl⟩, fun h => absurd (by simp [labels, hvb]) h⟩
    · rw [if_neg hvb]
      constructor
      · intro hb
        have key : ∀ {A B : UT}, (A.top = a ∧ B.top = d) → ((b ∈ A.labels → ∃ P, treePath g b f A.top (some v) = some P ∧ Down A P ∧ P.getLast? = some b) ∧
            (b ∉ A.labels → treePath g b f A.top (some v) = none)) →
            ((b ∈ B.labels → ∃ P, treePath g b f B.top (some v) = some P ∧ Down B P ∧ P.getLast? = some b) ∧
            (b ∉ B.labels → treePath g b f B.top (some v) = none)) → (b ∈ A.labels ∨ b ∈ B.labels) →
            (∀ Q, Down A Q ∨ Down B Q → Down (UT.node v l r) (v :: Q)) →
            ∃ P, (((treePath g b f a (some v)).map (v :: ·)).or ((treePath g b f d (some v)).map (v :: ·))) = some P ∧
              Down (UT.node v l r) P ∧ P.getLast? = some b := by
          intro A B ht hA hB hAB hD
          rw [← ht.1, ← ht.2]
          by_cases hbA : b ∈ A.labels
          · obtain ⟨P, p1, p2, p3⟩ := hA.1 hbA
            refine ⟨v :: P, by rw [p1]; rfl, hD P (Or.inl p2), ?_⟩
            obtain ⟨Q, rfl⟩ := p2.head
            rw [List.getLast?_cons_cons]; exact p3
          · obtain ⟨P, p1, p2, p3⟩ := hB.1 (hAB.resolve_left hbA)
            refine ⟨v :: P, by rw [hA.2 hbA, p1]; rfl, hD P (Or.inr p2), ?_⟩
            obtain ⟨Q, rfl⟩ := p2.head
            rw [List.getLast?_cons_cons]; exact p3
        rw [labels, List.mem_cons, List.mem_append] at hb
        have hb' := hb.resolve_left (fun e => hvb e.symm)
        rcases hcase with ht | ht
        · exact key ht Il Ir hb' fun Q hQ => Or.inr ⟨Q, rfl, hQ⟩
        · exact key ht Ir Il hb'.symm fun Q hQ => Or.inr ⟨Q, rfl, hQ.symm⟩
      · intro hb
        rw [labels, List.mem_cons, List.mem_append, not_or, not_or] at hb
        rcases hcase with ht | ht
        · rw [← ht.1, ← ht.2, Il.2 hb.2.1, Ir.2 hb.2.2]; rfl
        · rw [← ht.1, ← ht.2, Il.2 hb.2.1, Ir.2 hb.2.2]; rfl

/-- What hangs at the neighbour of an operand. -/
theorem Tree.from_leaf {g : Uct} (h : g.Tree) {x : Nat} (hx : x < g.n) (hx2 : x < 2 * g.n - 2) :
    ∃ q T, g.adj x = [q] ∧ T.top = q ∧ Shape g.n g.adj x T ∧ Cut g.n g.adj x q (.leaf x) T := by
  obtain ⟨_, _, hc⟩ := h
  obtain ⟨q, Tx, T, hc'⟩ : ∃ q Tx T, Cut g.n g.adj x q Tx T := by
    rcases hc.mem.1 hx2 with h | h
    · exact hc.find x h
    · exact hc.symm.find x h
  cases Tx with
  | leaf w =>
    have : w = x := hc'.tu
    subst this
    exact ⟨q, T, hc'.su.2, hc'.tv, hc'.sv, hc'⟩
  | node w l r =>
    have : w = x := hc'.tu
    subst this
    exact absurd hx (Nat.not_lt.2 hc'.su.1)

/-- The stem: a path between operands that no other is heavier than. -/
structure Heaviest (g : Uct) (s : List Nat) : Prop where
  path : IsGraphPath g.adj s
  mem : ∀ x ∈ s, x < 2 * g.n - 2
  ends : ∃ a b, s.head? = some a ∧ s.getLast? = some b ∧ a < g.n ∧ b < g.n
  max : ∀ P, IsGraphPath g.adj P → (∀ x ∈ P, x < 2 * g.n - 2) → listWeight g.wt P ≤ listWeight g.wt s

theorem detectStem_spec {g : Uct} (h2 : 2 ≤ g.n) (ht : g.Tree) (hp : g.Parents)
    (hn : ∀ y, g.n ≤ y → y < 2 * g.n - 2 → (g.ncost y).isSome) :
    ∃ s, g.detectStem = some { g with stem := s } ∧ g.Heaviest s := by
  have h0 : (0 : Nat) < 2 * g.n - 2 := by omega
  obtain ⟨q, T, aq, tq, sT, hcut⟩ := ht.from_leaf (x := 0) (by omega) h0
  have hpar : g.parent 0 = q := by
    have := hp.mem 0 h0
    rw [aq] at this
    simpa using this
  have hlen := hcut.perm.length_eq
  rw [List.length_append, List.length_range] at hlen
  have hnd := hcut.nodup
  rw [List.nodup_append'] at hnd
  have hlT : ∀ x ∈ T.labels, x < 2 * g.n - 2 := fun x hx => hcut.mem.2 (Or.inr hx)
  have h0T : 0 ∉ T.labels := fun e => hnd.2.2 (by simp [labels]) e
  obtain ⟨e0, e1, z, P, Q, x1, x2, x3, x4, x5, x6, _, _, _, x10, x11, _⟩ := stemBelow_spec ht hn sT hnd.2.1 hlT (fuel := 2 * g.n) (by omega)
  obtain ⟨_, lf, _⟩ := labels_perm sT
  have me0 : e0 ∈ T.labels := x3 e0 (List.mem_of_mem_head? (by rw [x4]; exact rfl))
  have me1 : e1 ∈ T.labels := x3 e1 (List.mem_of_getLast? x5)
  have hsym : ∀ x, x < 2 * g.n - 2 → ∀ y ∈ g.adj x, x ∈ g.adj y := by
    obtain ⟨_, _, hc⟩ := id ht
    exact fun x hx y hy => ((hc.nbrs hx).2.2 y hy).1
  -- the path between the ends
  have hpath : g.treePath e1 (2 * g.n) e0 none = some P := by
    obtain ⟨q', T', aq', tq', sT', hcut'⟩ := ht.from_leaf (x := e0) (lf _ x10) (hlT _ me0)
    have hlen' := hcut'.perm.length_eq
    rw [List.length_append, List.length_range] at hlen'
    have hnd' := hcut'.nodup
    rw [List.nodup_append'] at hnd'
    obtain ⟨f, hf⟩ : ∃ f, 2 * g.n = f + 1 := ⟨2 * g.n - 1, by omega⟩
    rw [hf, treePath]
    cases P with
    | nil => simp at x4
    | cons x P =>
      simp only [List.head?_cons, Option.some.injEq] at x4
      subst x4
      split
      · rename_i e
        cases P with
        | nil => rfl
        | cons y P =>
          rw [List.getLast?_cons_cons] at x5
          have : e1 ∈ y :: P := List.mem_of_getLast? x5
          rw [← e] at this
          exact absurd this (List.nodup_cons.1 x2.2).1
      · rename_i e
        cases P with
        | nil => simp at x5; exact absurd x5 e
        | cons y P =>
          have hy := (List.isChain_cons_cons.1 x2.1).1
          rw [aq', List.mem_singleton] at hy
          subst hy
          have hd : Down T' (y :: P) := by
            have := sT'.down P (by rw [tq']; exact ⟨(List.isChain_cons_cons.1 x2.1).2, (List.nodup_cons.1 x2.2).2⟩)
              (fun e => (List.nodup_cons.1 x2.2).1 (List.mem_cons_of_mem _ e))
            rwa [tq'] at this
          rw [List.getLast?_cons_cons] at x5
          obtain ⟨P', p1, p2, p3⟩ := (treePath_spec ht sT' (fun z hz => hcut'.mem.2 (Or.inr hz)) (fuel := f) (by
            rw [show (UT.leaf x).labels.length = 1 from rfl] at hlen'
            omega) e1).1 (hd.mem _ (List.mem_of_getLast? x5))
          have := Down.uniq hnd'.2.1 p2 hd (by rw [p3, x5])
          rw [this, tq'] at p1
          rw [aq']
          simp [p1]
  refine ⟨P, ?_, x2, fun x hx => hlT x (x3 x hx), ⟨e0, e1, x4, x5, lf _ x10, lf _ x11⟩, ?_⟩
  · unfold detectStem
    rw [hpar, ← tq, x1]
    simp only
    rw [hpath]
    rfl
  · have hw0 : ∀ x ∈ T.leaves, g.wt x = 0 := by
      intro x hx
      unfold wt
      rw [if_pos (lf x hx)]
    have hw00 : g.wt 0 = 0 := by
      unfold wt
      rw [if_pos (by omega)]
    have inT : ∀ {R : List Nat}, IsGraphPath g.adj R → (∀ x ∈ R, x < 2 * g.n - 2) → 0 ∉ R → listWeight g.wt R ≤ listWeight g.wt P := by
      intro R hR hm h0R
      rw [x6]
      refine sT.best hnd.2.1 (fun x hx => hsym x (hlT x hx)) hw0 h0T hR ?_
      intro x hx
      rcases hcut.mem.1 (hm x hx) with h | h
      · simp only [labels, List.mem_singleton] at h
        exact absurd (h ▸ hx) h0R
      · exact h
    intro R hR hm
    by_cases h0R : 0 ∈ R
    · obtain ⟨A, B, rfl⟩ := List.append_of_mem h0R
      obtain ⟨c1, c2⟩ := List.isChain_split.1 hR.1
      have hnR := List.nodup_append'.1 hR.2
      have hA0 : 0 ∉ A := fun e => hnR.2.2 e (by simp)
      have hB0 : 0 ∉ B := (List.nodup_cons.1 hnR.2.1).1
      have hAB : A = [] ∨ B = [] := by
        cases B with
        | nil => exact Or.inr rfl
        | cons y B =>
          left
          have hy := (List.isChain_cons_cons.1 c2).1
          rw [aq, List.mem_singleton] at hy
          rcases List.eq_nil_or_concat A with e | ⟨A', x, rfl⟩
          · exact e
          · exfalso
            rw [List.concat_eq_append, List.append_assoc] at c1
            have := (List.isChain_cons_cons.1 (List.isChain_split.1 c1).2).1
            have := hsym x (hm x (by simp)) 0 this
            rw [aq, List.mem_singleton] at this
            exact hnR.2.2 (by simp : x ∈ A'.concat x) (by rw [this, hy]; simp)
      rcases hAB with rfl | rfl
      · rw [List.nil_append, listWeight_cons, hw00, Nat.zero_add]
        refine inT ⟨?_, (List.nodup_cons.1 hnR.2.1).2⟩ (fun x hx => hm x (by simp [hx])) hB0
        exact c2.tail
      · rw [listWeight_append, listWeight_cons, hw00, show listWeight g.wt [] = 0 from rfl, Nat.add_zero]
        refine inT ⟨?_, hnR.1⟩ (fun x hx => hm x (by simp [hx])) hA0
        exact (List.isChain_append.1 c1).1
    · exact inT hR hm h0R

end Uct

end Verif
