import Verif.Lemmas.UctPath
/-!
# `UndirectedContractionTree`: the constructor establishes the invariant
-/

namespace Verif

open UT

/-- A part of the tree whose top has no parent yet. -/
def UT.Open (n : Nat) (adj : Nat → List Nat) (parent : Nat → Nat) : UT → Prop
  | leaf v => v < n ∧ adj v = []
  | node v l r => n ≤ v ∧ adj v = [l.top, r.top] ∧ Shape n adj v l ∧ Shape n adj v r ∧ Par parent v l ∧ Par parent v r

theorem UT.Par.congr {parent parent' : Nat → Nat} {p : Nat} {T : UT} (h : Par parent p T) (he : ∀ x ∈ T.labels, parent' x = parent x) :
    Par parent' p T := by
  induction T generalizing p with
  | leaf v => exact (he v (by simp [labels])).trans h
  | node v l r ihl ihr =>
    exact ⟨(he v (by simp [labels])).trans h.1, ihl h.2.1 fun x hx => he x (by simp [labels, hx]),
      ihr h.2.2 fun x hx => he x (by simp [labels, hx])⟩

theorem UT.Open.congr {n : Nat} {adj adj' : Nat → List Nat} {parent parent' : Nat → Nat} {T : UT} (h : Open n adj parent T)
    (ha : ∀ x ∈ T.labels, adj' x = adj x) (hp : ∀ x ∈ T.labels, parent' x = parent x) : Open n adj' parent' T := by
  cases T with
  | leaf v => exact ⟨h.1, (ha v (by simp [labels])).trans h.2⟩
  | node v l r =>
    obtain ⟨h1, h2, h3, h4, h5, h6⟩ := h
    exact ⟨h1, (ha v (by simp [labels])).trans h2, h3.congr fun x hx => ha x (by simp [labels, hx]),
      h4.congr fun x hx => ha x (by simp [labels, hx]), h5.congr fun x hx => hp x (by simp [labels, hx]),
      h6.congr fun x hx => hp x (by simp [labels, hx])⟩

/-- The top gets a parent. -/
theorem UT.Open.attach {n : Nat} {adj adj' : Nat → List Nat} {parent parent' : Nat → Nat} {T : UT} {p : Nat} (h : Open n adj parent T)
    (hn : T.labels.Nodup) (ht : adj' T.top = adj T.top ++ [p]) (hpt : parent' T.top = p)
    (ha : ∀ x ∈ T.labels, x ≠ T.top → adj' x = adj x) (hp : ∀ x ∈ T.labels, x ≠ T.top → parent' x = parent x) :
    Shape n adj' p T ∧ Par parent' p T := by
  cases T with
  | leaf v =>
    refine ⟨⟨h.1, ?_⟩, hpt⟩
    have h2 : adj v = [] := h.2
    have : adj' v = adj v ++ [p] := ht
    rw [this, h2]
    rfl
  | node v l r =>
    obtain ⟨h1, h2, h3, h4, h5, h6⟩ := h
    rw [labels, List.nodup_cons, List.mem_append, not_or] at hn
    have nl : ∀ x ∈ l.labels, x ∈ (UT.node v l r).labels ∧ x ≠ v := fun x hx => ⟨by simp [labels, hx], fun e => hn.1.1 (e ▸ hx)⟩
    have nr : ∀ x ∈ r.labels, x ∈ (UT.node v l r).labels ∧ x ≠ v := fun x hx => ⟨by simp [labels, hx], fun e => hn.1.2 (e ▸ hx)⟩
    refine ⟨⟨h1, ?_, h3.congr fun x hx => ha x (nl x hx).1 (nl x hx).2, h4.congr fun x hx => ha x (nr x hx).1 (nr x hx).2⟩, hpt,
      h5.congr fun x hx => hp x (nl x hx).1 (nl x hx).2, h6.congr fun x hx => hp x (nr x hx).1 (nr x hx).2⟩
    have : adj' v = adj v ++ [p] := ht
    rw [this, h2]
    exact List.perm_append_comm (l₁ := [l.top, r.top]) (l₂ := [p])

/-- The fields that the loop over the path leaves alone. -/
def Uct.SameBase (g g' : Uct) : Prop :=
  g'.n = g.n ∧ g'.opn = g.opn ∧ g'.sub = g.sub ∧ g'.side = g.side ∧ g'.ncost = g.ncost ∧ g'.cost = g.cost ∧ g'.rootCost = g.rootCost

/-- The loop over the path: the operands are the tops of a forest on the vertices so far. -/
structure UForest (g : Uct) (t : Nat) (Ts : List UT) : Prop where
  opn : ∀ T ∈ Ts, UT.Open g.n g.adj g.parent T
  perm : (Ts.flatMap labels).Perm (List.range t)
  fresh : ∀ x, t ≤ x → g.adj x = []

theorem flatMap_eraseIdx_perm {Ts : List UT} {i : Nat} {T : UT} (h : Ts[i]? = some T) :
    (T.labels ++ (Ts.eraseIdx i).flatMap labels).Perm (Ts.flatMap labels) := by
  have hi : i < Ts.length := by
    by_contra hc
    rw [List.getElem?_eq_none (by omega)] at h
    simp at h
  rw [List.getElem?_eq_getElem hi, Option.some.injEq] at h
  have : (T :: Ts.eraseIdx i).Perm Ts := by
    rw [← h]
    exact List.getElem_cons_eraseIdx_perm hi
  have := this.flatMap_right labels
  rwa [List.flatMap_cons] at this

theorem mem_flatMap_labels {Ts : List UT} {T : UT} (h : T ∈ Ts) {x : Nat} (hx : x ∈ T.labels) : x ∈ Ts.flatMap labels :=
  List.mem_flatMap.2 ⟨T, h, hx⟩

namespace Uct

theorem initLoop_step {g : Uct} {t : Nat} {Ts : List UT} (h : UForest g t Ts) (hn : g.n ≤ t) {i j : Nat} {Tv Tu : UT}
    (hv : Ts[max i j]? = some Tv) (hu : (Ts.eraseIdx (max i j))[min i j]? = some Tu) :
    ∃ g', (∀ path, initLoop ((i, j) :: path) (Ts.map top) t g =
        initLoop path ((((Ts.eraseIdx (max i j)).eraseIdx (min i j)) ++ [UT.node t Tu Tv]).map top) (t + 1) g') ∧
      SameBase g g' ∧ UForest g' (t + 1) (((Ts.eraseIdx (max i j)).eraseIdx (min i j)) ++ [UT.node t Tu Tv]) := by
  set R := (Ts.eraseIdx (max i j)).eraseIdx (min i j) with hR
  have hp1 := flatMap_eraseIdx_perm hv
  have hp2 := flatMap_eraseIdx_perm hu
  have hp : (Tv.labels ++ (Tu.labels ++ R.flatMap labels)).Perm (List.range t) := ((hp2.append_left _).trans hp1).trans h.perm
  have hnd := hp.nodup_iff.2 List.nodup_range
  have hlt : ∀ x ∈ Tv.labels ++ (Tu.labels ++ R.flatMap labels), x < t := fun x hx => List.mem_range.1 (hp.subset hx)
  rw [List.nodup_append', List.nodup_append'] at hnd
  obtain ⟨ndv, ⟨ndu, ndR, duR⟩, dvR⟩ := hnd
  have mv : Tv ∈ Ts := List.mem_of_getElem? hv
  have mu : Tu ∈ Ts := (List.eraseIdx_subset) (List.mem_of_getElem? hu)
  have htu : Tu.top < t := hlt _ (by simp [Tu.top_mem])
  have htv : Tv.top < t := hlt _ (by simp [Tv.top_mem])
  have huv : Tu.top ≠ Tv.top := fun e => dvR Tv.top_mem (List.mem_append_left _ (e ▸ Tu.top_mem))
  -- no edge leads to a vertex that is not there yet
  have hft : g.adj t = [] := h.fresh t (Nat.le_refl t)
  have nbt : ∀ {T : UT}, T ∈ Ts → t ∉ g.adj T.top := by
    intro T hT ht
    have ho := h.opn T hT
    have hl : ∀ x ∈ T.labels, x < t := fun x hx => List.mem_range.1 (h.perm.subset (mem_flatMap_labels hT hx))
    cases T with
    | leaf v =>
      simp only [top] at ht
      rw [ho.2] at ht
      simp at ht
    | node v l r =>
      simp only [top] at ht
      rw [ho.2.1] at ht
      simp only [List.mem_cons, List.not_mem_nil, or_false] at ht
      rcases ht with e | e
      · have := hl l.top (by simp [labels, l.top_mem]); omega
      · have := hl r.top (by simp [labels, r.top_mem]); omega
  let g1 := (g.addEdge Tu.top t).addEdge Tv.top t
  have e1 : (g.addEdge Tu.top t).adj = put (put g.adj Tu.top (g.adj Tu.top ++ [t])) t [Tu.top] := by
    unfold addEdge
    rw [if_neg (nbt mu)]
    simp only
    rw [put_ne (by omega : t ≠ Tu.top), hft]
    rfl
  have e1v : (g.addEdge Tu.top t).adj Tv.top = g.adj Tv.top := by
    rw [e1, put_ne (by omega), put_ne huv.symm]
  have e2 : g1.adj = fun x => if x = t then [Tu.top, Tv.top] else if x = Tv.top then g.adj Tv.top ++ [t]
      else if x = Tu.top then g.adj Tu.top ++ [t] else g.adj x := by
    show ((g.addEdge Tu.top t).addEdge Tv.top t).adj = _
    rw [addEdge, if_neg (by rw [e1v]; exact nbt mv)]
    simp only
    rw [put_ne (show t ≠ Tv.top by omega), e1v]
    funext x
    rw [e1]
    unfold put
    have q1 : Tv.top ≠ t := by omega
    have q2 : Tu.top ≠ t := by omega
    by_cases a1 : x = t
    · subst a1
      simp
    · by_cases a2 : x = Tv.top
      · simp [a2, q1]
      · by_cases a3 : x = Tu.top
        · simp [a3, q2, huv]
        · simp [a1, a2, a3]
  have base : SameBase g g1 ∧ g1.parent = g.parent := by
    show SameBase g ((g.addEdge Tu.top t).addEdge Tv.top t) ∧ ((g.addEdge Tu.top t).addEdge Tv.top t).parent = g.parent
    rw [addEdge, if_neg (by rw [e1v]; exact nbt mv), addEdge, if_neg (nbt mu)]
    exact ⟨⟨rfl, rfl, rfl, rfl, rfl, rfl, rfl⟩, rfl⟩
  refine ⟨{ g1 with parent := put (put g1.parent Tu.top t) Tv.top t }, ?_, base.1, ?_⟩
  · intro path
    rw [initLoop, List.getElem?_map, hv]
    simp only [Option.map_some]
    rw [List.eraseIdx_map, List.getElem?_map, hu]
    simp only [Option.map_some]
    rw [List.eraseIdx_map, List.map_append]
    rfl
  · have hn1 : g1.n = g.n := base.1.1
    -- the adjacency and the parents away from the new vertex
    have adjo : ∀ x, x < t → x ≠ Tu.top → x ≠ Tv.top → g1.adj x = g.adj x := by
      intro x a1 a2 a3
      rw [e2]
      simp only [if_neg (show x ≠ t by omega), if_neg a2, if_neg a3]
    have paro : ∀ x, x ≠ Tu.top → x ≠ Tv.top → put (put g1.parent Tu.top t) Tv.top t x = g.parent x := by
      intro x a2 a3
      rw [put_ne a3, put_ne a2, base.2]
    have ou := (h.opn Tu mu).attach (adj' := g1.adj) (parent' := put (put g1.parent Tu.top t) Tv.top t) (p := t) ndu
      (by rw [e2]; simp only [if_neg (show Tu.top ≠ t by omega), if_neg huv, if_true])
      (by rw [put_ne huv, put_same])
      (fun x hx hxt => adjo x (hlt x (by simp [hx])) hxt (fun e => dvR Tv.top_mem (List.mem_append_left _ (e ▸ hx))))
      (fun x hx hxt => paro x hxt (fun e => dvR Tv.top_mem (List.mem_append_left _ (e ▸ hx))))
    have ov := (h.opn Tv mv).attach (adj' := g1.adj) (parent' := put (put g1.parent Tu.top t) Tv.top t) (p := t) ndv
      (by rw [e2]; simp only [if_neg (show Tv.top ≠ t by omega), if_true])
      (by rw [put_same])
      (fun x hx hxt => adjo x (hlt x (by simp [hx])) (fun e => dvR hx (List.mem_append_left _ (e ▸ Tu.top_mem))) hxt)
      (fun x hx hxt => paro x (fun e => dvR hx (List.mem_append_left _ (e ▸ Tu.top_mem))) hxt)
    refine ⟨?_, ?_, ?_⟩
    · intro T hT
      rcases List.mem_append.1 hT with hT | hT
      · have hTs : T ∈ Ts := List.eraseIdx_subset (List.eraseIdx_subset hT)
        show UT.Open g1.n g1.adj (put (put g1.parent Tu.top t) Tv.top t) T
        rw [hn1]
        have hx1 : ∀ x ∈ T.labels, x < t ∧ x ≠ Tu.top ∧ x ≠ Tv.top := by
          intro x hx
          have hxR : x ∈ R.flatMap labels := mem_flatMap_labels hT hx
          exact ⟨hlt x (by simp only [List.mem_append]; exact Or.inr (Or.inr hxR)), fun e => duR Tu.top_mem (e ▸ hxR),
            fun e => dvR Tv.top_mem (List.mem_append_right _ (e ▸ hxR))⟩
        exact (h.opn T hTs).congr (fun x hx => adjo x (hx1 x hx).1 (hx1 x hx).2.1 (hx1 x hx).2.2)
          (fun x hx => paro x (hx1 x hx).2.1 (hx1 x hx).2.2)
      · rw [List.mem_singleton] at hT
        subst hT
        show UT.Open g1.n g1.adj (put (put g1.parent Tu.top t) Tv.top t) (.node t Tu Tv)
        rw [hn1]
        exact ⟨hn, by rw [e2]; simp, ou.1, ov.1, ou.2, ov.2⟩
    · rw [List.flatMap_append, List.flatMap_cons, List.flatMap_nil, List.append_nil, labels, List.range_succ]
      refine List.perm_middle.trans ?_
      refine List.Perm.trans ?_ (List.perm_append_comm (l₁ := [t]))
      refine List.Perm.cons _ (List.Perm.trans ?_ hp)
      refine List.perm_append_comm.trans ?_
      rw [← List.append_assoc]
      exact List.perm_append_comm.append_right _
    · intro x hx
      show g1.adj x = []
      rw [e2]
      simp only [if_neg (show x ≠ t by omega), if_neg (show x ≠ Tv.top by omega), if_neg (show x ≠ Tu.top by omega)]
      exact h.fresh x (by omega)

theorem SameBase.trans {a b c : Uct} (h : SameBase a b) (h' : SameBase b c) : SameBase a c := by
  obtain ⟨h1, h2, h3, h4, h5, h6, h7⟩ := h
  obtain ⟨k1, k2, k3, k4, k5, k6, k7⟩ := h'
  exact ⟨k1.trans h1, k2.trans h2, k3.trans h3, k4.trans h4, k5.trans h5, k6.trans h6, k7.trans h7⟩

theorem validPath_pair {m i j : Nat} {p : List (List Nat)} (h : ValidPath m ([i, j] :: p)) :
    ∃ k, m = k + 1 ∧ i < k + 1 ∧ j < k + 1 ∧ i ≠ j ∧ ValidPath k p := by
  cases h with
  | two h1 h2 h3 h4 => exact ⟨_, rfl, h1, h2, h3, h4⟩

theorem getD_lt {α : Type} {l : List α} {i : Nat} {d : α} (h : i < l.length) : l.getD i d = l[i] := by
  rw [List.getD_eq_getElem?_getD, List.getElem?_eq_getElem h]
  rfl

/-- The loop over the path, on trees. -/
def mergeLoop : List (Nat × Nat) → List UT → Nat → List UT
  | [], Ts, _ => Ts
  | (i, j) :: path, Ts, t =>
    mergeLoop path (((Ts.eraseIdx (max i j)).eraseIdx (min i j)) ++
      [UT.node t ((Ts.eraseIdx (max i j)).getD (min i j) (.leaf 0)) (Ts.getD (max i j) (.leaf 0))]) (t + 1)

theorem initLoop_spec : ∀ (path : List (Nat × Nat)) {g : Uct} {t m : Nat} {Ts : List UT}, UForest g t Ts → g.n ≤ t → Ts.length = m →
    path ≠ [] → ValidPath m (path.map fun e => [e.1, e.2]) →
    ∃ g' Tu Tv, initLoop path.dropLast (Ts.map top) t g = some ([Tu.top, Tv.top], g') ∧ SameBase g g' ∧ UForest g' (t + m - 2) [Tu, Tv] ∧
      mergeLoop path.dropLast Ts t = [Tu, Tv] := by
  intro path
  induction path with
  | nil => intro g t m Ts _ _ _ hne; exact absurd rfl hne
  | cons e path ih =>
    intro g t m Ts hF hn hl _ hv
    obtain ⟨i, j⟩ := e
    obtain ⟨k, rfl, hi, hj, hij, hv'⟩ := validPath_pair hv
    cases path with
    | nil =>
      have hk : k = 1 := by
        cases hv' with
        | done => rfl
      subst hk
      match Ts, hl with
      | [Tu, Tv], _ => exact ⟨g, Tu, Tv, rfl, ⟨rfl, rfl, rfl, rfl, rfl, rfl, rfl⟩, hF, rfl⟩
    | cons e' path' =>
      have hmax : max i j < Ts.length := by rw [hl]; exact Nat.max_lt.2 ⟨hi, hj⟩
      have hmin : min i j < (Ts.eraseIdx (max i j)).length := by
        rw [List.length_eraseIdx_of_lt hmax]
        have : min i j < max i j := by omega
        omega
      obtain ⟨g1, a1, a2, a3⟩ := initLoop_step hF hn (List.getElem?_eq_getElem hmax) (List.getElem?_eq_getElem hmin)
      obtain ⟨g2, Tu, Tv, b1, b2, b3, b4⟩ := ih (m := k) a3 (by rw [a2.1]; omega) (by
        rw [List.length_append, List.length_eraseIdx_of_lt hmin, List.length_eraseIdx_of_lt hmax, hl]
        simp only [List.length_cons, List.length_nil]
        have := List.length_eraseIdx_of_lt hmax
        omega) (by simp) hv'
      refine ⟨g2, Tu, Tv, ?_, a2.trans b2, ?_, ?_⟩
      · rw [List.dropLast_cons_of_ne_nil (by simp), a1]
        exact b1
      · have : t + (k + 1) - 2 = t + 1 + k - 2 := by omega
        rw [this]
        exact b3
      · rw [List.dropLast_cons_of_ne_nil (by simp), mergeLoop, getD_lt hmax, getD_lt hmin]
        exact b4

/-- In a part of the tree whose parents lead to `p`, only the top can be the parent of its parent. -/
theorem par_uniq {parent : Nat → Nat} {p : Nat} {T : UT} (h : Par parent p T) (hn : T.labels.Nodup) (hp : p ∉ T.labels) :
    ∀ x ∈ T.labels, parent (parent x) = x → parent x = p ∧ x = T.top := by
  induction T generalizing p with
  | leaf v =>
    intro x hx _
    simp only [labels, List.mem_singleton] at hx
    subst hx
    exact ⟨h, rfl⟩
  | node v l r ihl ihr =>
    rw [labels, List.nodup_cons, List.nodup_append', List.mem_append, not_or] at hn
    intro x hx hm
    rw [labels, List.mem_cons, List.mem_append] at hx
    rcases hx with rfl | hx | hx
    · exact ⟨h.1, rfl⟩
    · obtain ⟨a1, a2⟩ := ihl h.2.1 hn.2.1 hn.1.1 x hx hm
      rw [a1, h.1] at hm
      exact absurd (hm ▸ (by simp [labels, hx] : x ∈ (UT.node v l r).labels)) hp
    · obtain ⟨a1, a2⟩ := ihr h.2.2 hn.2.2.1 hn.1.2 x hx hm
      rw [a1, h.1] at hm
      exact absurd (hm ▸ (by simp [labels, hx] : x ∈ (UT.node v l r).labels)) hp

theorem par_mem {n : Nat} {adj : Nat → List Nat} {parent : Nat → Nat} {p : Nat} {T : UT} (hs : Shape n adj p T) (h : Par parent p T) :
    ∀ x ∈ T.labels, parent x ∈ adj x := by
  induction T generalizing p with
  | leaf v =>
    intro x hx
    simp only [labels, List.mem_singleton] at hx
    subst hx
    rw [hs.2, show parent x = p from h]
    simp
  | node v l r ihl ihr =>
    intro x hx
    rw [labels, List.mem_cons, List.mem_append] at hx
    rcases hx with rfl | hx | hx
    · rw [h.1]
      exact hs.2.1.symm.subset (by simp)
    · exact ihl hs.2.2.1 h.2.1 x hx
    · exact ihr hs.2.2.2 h.2.2 x hx

/-- The parents lead to the root, if they do so on both sides of it. -/
theorem parents_of_par {g : Uct} {Tu Tv : UT} (hc : Cut g.n g.adj g.root.1 g.root.2 Tu Tv) (hu : Par g.parent g.root.2 Tu)
    (hv : Par g.parent g.root.1 Tv) : g.Parents := by
  have hnd := hc.nodup
  rw [List.nodup_append'] at hnd
  have mu : g.root.1 ∈ Tu.labels := by have := Tu.top_mem; rwa [hc.tu] at this
  have mv : g.root.2 ∈ Tv.labels := by have := Tv.top_mem; rwa [hc.tv] at this
  refine ⟨?_, ⟨by have := hu.top; rwa [hc.tu] at this, by have := hv.top; rwa [hc.tv] at this⟩, ?_⟩
  · intro x hx
    rcases hc.mem.1 hx with hx | hx
    · exact par_mem hc.su hu x hx
    · exact par_mem hc.sv hv x hx
  · intro x hx hm
    rcases hc.mem.1 hx with hx | hx
    · obtain ⟨a1, a2⟩ := par_uniq hu hnd.1 (fun e => hnd.2.2 e mv) x hx hm
      left
      rw [a1, a2, hc.tu]
    · obtain ⟨a1, a2⟩ := par_uniq hv hnd.2.1 (fun e => hnd.2.2 mu e) x hx hm
      right
      rw [a1, a2, hc.tv]

/-- The edge between the last two operands completes the tree. -/
theorem forest_close {g : Uct} {t : Nat} {Tu Tv : UT} (h : UForest g t [Tu, Tv]) (ht : t = 2 * g.n - 2) :
    ∃ g', g' = ({ g.addEdge Tu.top Tv.top with root := (Tu.top, Tv.top), parent := put (put g.parent Tu.top Tv.top) Tv.top Tu.top } : Uct) ∧
      SameBase g g' ∧ Cut g'.n g'.adj g'.root.1 g'.root.2 Tu Tv ∧ Par g'.parent g'.root.2 Tu ∧ Par g'.parent g'.root.1 Tv := by
  refine ⟨_, rfl, ?_⟩
  have hp := h.perm
  rw [List.flatMap_cons, List.flatMap_cons, List.flatMap_nil, List.append_nil] at hp
  have hnd := hp.nodup_iff.2 List.nodup_range
  rw [List.nodup_append'] at hnd
  obtain ⟨ndu, ndv, duv⟩ := hnd
  have huv : Tu.top ≠ Tv.top := fun e => duv Tu.top_mem (e ▸ Tv.top_mem)
  have nxv : ∀ x ∈ Tu.labels, x ≠ Tv.top := fun x hx e => duv hx (e ▸ Tv.top_mem)
  have nxu : ∀ x ∈ Tv.labels, x ≠ Tu.top := fun x hx e => duv Tu.top_mem (e ▸ hx)
  have hno : Tv.top ∉ g.adj Tu.top := by
    have ho := h.opn Tu (by simp)
    intro hc
    cases Tu with
    | leaf w =>
      simp only [top] at hc
      rw [ho.2] at hc
      simp at hc
    | node w l r =>
      simp only [top] at hc
      rw [ho.2.1] at hc
      simp only [List.mem_cons, List.not_mem_nil, or_false] at hc
      rcases hc with e | e
      · exact duv (show l.top ∈ (UT.node w l r).labels by simp [labels, l.top_mem]) (e ▸ Tv.top_mem)
      · exact duv (show r.top ∈ (UT.node w l r).labels by simp [labels, r.top_mem]) (e ▸ Tv.top_mem)
  have e1 : (g.addEdge Tu.top Tv.top).adj = put (put g.adj Tu.top (g.adj Tu.top ++ [Tv.top])) Tv.top (g.adj Tv.top ++ [Tu.top]) := by
    unfold addEdge
    rw [if_neg hno]
    simp only
    rw [put_ne huv.symm]
  have base : SameBase g (g.addEdge Tu.top Tv.top) := by
    unfold addEdge
    rw [if_neg hno]
    exact ⟨rfl, rfl, rfl, rfl, rfl, rfl, rfl⟩
  have au := (h.opn Tu (by simp)).attach (adj' := (g.addEdge Tu.top Tv.top).adj) (parent' := put (put g.parent Tu.top Tv.top) Tv.top Tu.top)
    (p := Tv.top) ndu (by rw [e1, put_ne huv, put_same]) (by rw [put_ne huv, put_same])
    (fun x hx hxt => by rw [e1, put_ne (nxv x hx), put_ne hxt])
    (fun x hx hxt => by rw [put_ne (nxv x hx), put_ne hxt])
  have av := (h.opn Tv (by simp)).attach (adj' := (g.addEdge Tu.top Tv.top).adj) (parent' := put (put g.parent Tu.top Tv.top) Tv.top Tu.top)
    (p := Tu.top) ndv (by rw [e1, put_same]) (by rw [put_same])
    (fun x hx hxt => by rw [e1, put_ne hxt, put_ne (nxu x hx)])
    (fun x hx hxt => by rw [put_ne hxt, put_ne (nxu x hx)])
  have hcut : Cut g.n (g.addEdge Tu.top Tv.top).adj Tu.top Tv.top Tu Tv := ⟨rfl, rfl, au.1, av.1, by rw [← ht]; exact hp⟩
  have hcut' : Cut (g.addEdge Tu.top Tv.top).n (g.addEdge Tu.top Tv.top).adj Tu.top Tv.top Tu Tv := by
    rw [base.1]
    exact hcut
  exact ⟨base, hcut', au.2, av.2⟩

/-- What is stored at the edges so far is right. -/
def Memo (g : Uct) : Prop :=
  ∀ x y, x < 2 * g.n - 2 → y ∈ g.adj x → ∀ s, g.side x y = some s →
    (y < g.n → s = g.sub y) ∧ (g.n ≤ y → (∀ c ∈ g.adj y, c ≠ x → (g.side y c).isSome) ∧ s = ((g.nb y).erase x).biUnion (g.sd y))

/-- Only more edges are known. -/
structure More (g g' : Uct) : Prop where
  eq : g' = { g with side := g'.side }
  keep : ∀ x y s, g.side x y = some s → g'.side x y = some s

theorem More.refl (g : Uct) : More g g := ⟨rfl, fun _ _ _ h => h⟩

theorem More.trans {a b c : Uct} (h : More a b) (h' : More b c) : More a c := by
  refine ⟨?_, fun x y s hs => h'.keep x y s (h.keep x y s hs)⟩
  have h1 := h.eq
  have h2 := h'.eq
  rw [h1] at h2
  exact h2

theorem More.adj {g g' : Uct} (h : More g g') : g'.adj = g.adj := by rw [h.eq]
theorem More.n {g g' : Uct} (h : More g g') : g'.n = g.n := by rw [h.eq]
theorem More.sub {g g' : Uct} (h : More g g') : g'.sub = g.sub := by rw [h.eq]

theorem nb_adj {g g' : Uct} (h : g'.adj = g.adj) (x : Nat) : g'.nb x = g.nb x := by unfold nb; rw [h]

/-- Storing the right value at an edge. -/
theorem Memo.set {g : Uct} (h : g.Memo) {u v : Nat} {s : Finset Nat} (hne : u ≠ v)
    (h0 : g.side u v = none ∨ g.side u v = some s) (hl : v < g.n → s = g.sub v)
    (hn : g.n ≤ v → (∀ c ∈ g.adj v, c ≠ u → (g.side v c).isSome) ∧ s = ((g.nb v).erase u).biUnion (g.sd v)) :
    (g.setSide u v (some s)).Memo ∧ More g (g.setSide u v (some s)) := by
  have hmore : More g (g.setSide u v (some s)) := by
    refine ⟨rfl, fun x y s' hs => ?_⟩
    rw [setSide_side]
    split
    · rename_i e
      rw [e.1, e.2] at hs
      rcases h0 with h0 | h0
      · rw [h0] at hs; simp at hs
      · rw [← hs, h0]
    · exact hs
  refine ⟨?_, hmore⟩
  have some_mono : ∀ x y, (g.side x y).isSome → ((g.setSide u v (some s)).side x y).isSome := by
    intro x y hxy
    obtain ⟨s', hs'⟩ := Option.isSome_iff_exists.1 hxy
    rw [hmore.keep x y s' hs']
    rfl
  have sd_same : ∀ x y, (g.side x y).isSome → (g.setSide u v (some s)).sd x y = g.sd x y := by
    intro x y hxy
    obtain ⟨s', hs'⟩ := Option.isSome_iff_exists.1 hxy
    unfold sd
    rw [hmore.keep x y s' hs', hs']
  have trans : ∀ x y (s' : Finset Nat), ((∀ c ∈ g.adj y, c ≠ x → (g.side y c).isSome) ∧ s' = ((g.nb y).erase x).biUnion (g.sd y)) →
      (∀ c ∈ g.adj y, c ≠ x → ((g.setSide u v (some s)).side y c).isSome) ∧ s' = ((g.nb y).erase x).biUnion ((g.setSide u v (some s)).sd y) := by
    rintro x y s' ⟨h1, h2⟩
    refine ⟨fun c hc hcx => some_mono y c (h1 c hc hcx), h2.trans ?_⟩
    apply Finset.biUnion_congr rfl
    intro c hc
    exact (sd_same y c (h1 c (mem_nb.1 (Finset.mem_of_mem_erase hc)) (Finset.ne_of_mem_erase hc))).symm
  intro x y hx hy s' hs'
  rw [setSide_side] at hs'
  split at hs'
  · rename_i e
    obtain ⟨rfl, rfl⟩ := e
    simp only [Option.some.injEq] at hs'
    subst hs'
    exact ⟨hl, fun hy' => trans x y s (hn hy')⟩
  · obtain ⟨a1, a2⟩ := h x y hx hy s' hs'
    exact ⟨a1, fun hy' => trans x y s' (a2 hy')⟩

/-- `preprocess_edge` computes what is missing. -/
theorem preprocess_spec {g : Uct} (h : g.Memo) (hT : g.Tree) {p : Nat} {T : UT} (hs : Shape g.n g.adj p T) (hp : p < 2 * g.n - 2)
    (hl : ∀ x ∈ T.labels, x < 2 * g.n - 2) {fuel : Nat} (hf : T.labels.length ≤ fuel) :
    ∃ g' s, preprocess fuel g p T.top = some (g', s) ∧ g'.Memo ∧ More g g' ∧ g'.side p T.top = some s := by
  obtain ⟨Ru, Rv, hc⟩ := hT
  induction T generalizing p g fuel with
  | leaf v =>
    obtain ⟨f, rfl⟩ : ∃ f, fuel = f + 1 := ⟨fuel - 1, by simp [labels] at hf; omega⟩
    show ∃ g' s, preprocess (f + 1) g p v = some (g', s) ∧ g'.Memo ∧ More g g' ∧ g'.side p v = some s
    rw [preprocess]
    cases hsd : g.side p v with
    | some s => exact ⟨g, s, rfl, h, More.refl g, hsd⟩
    | none =>
      simp only [if_pos hs.1]
      have hv : v < 2 * g.n - 2 := hl v (by simp [labels])
      have hne : p ≠ v := ((hc.nbrs hv).2.2 p (by rw [hs.2]; simp)).2.2
      obtain ⟨a1, a2⟩ := h.set (s := g.sub v) hne (Or.inl hsd) (fun _ => rfl) (fun hn => absurd hs.1 (Nat.not_lt.2 hn))
      exact ⟨_, _, rfl, a1, a2, by rw [setSide_side, if_pos ⟨rfl, rfl⟩]⟩
  | node v l r ihl ihr =>
    have hfl : l.labels.length + r.labels.length + 1 ≤ fuel := by
      rw [labels, List.length_cons, List.length_append] at hf
      exact hf
    obtain ⟨f, rfl⟩ : ∃ f, fuel = f + 1 := ⟨fuel - 1, by omega⟩
    show ∃ g' s, preprocess (f + 1) g p v = some (g', s) ∧ g'.Memo ∧ More g g' ∧ g'.side p v = some s
    rw [preprocess]
    cases hsd : g.side p v with
    | some s => exact ⟨g, s, rfl, h, More.refl g, hsd⟩
    | none =>
      simp only [if_neg (Nat.not_lt.2 hs.1)]
      have hv : v < 2 * g.n - 2 := hl v (by simp [labels])
      have hll : ∀ x ∈ l.labels, x < 2 * g.n - 2 := fun x hx => hl x (by simp [labels, hx])
      have hlr : ∀ x ∈ r.labels, x < 2 * g.n - 2 := fun x hx => hl x (by simp [labels, hx])
      have hn := hc.nbrs hv
      rw [if_neg (Nat.not_lt.2 hs.1)] at hn
      have mp : p ∈ g.adj v := hs.2.1.symm.subset (by simp)
      have hne : p ≠ v := (hn.2.2 p mp).2.2
      obtain ⟨a, b, e1, e2, e3, e4⟩ := filter_two hn.1 hn.2.1 mp
      have hperm : [a, b].Perm [l.top, r.top] := (List.perm_cons p).1 (e4.symm.trans hs.2.1)
      -- the two children in either order
      have key : ∀ {A B : UT} (_ : A.top = a) (_ : B.top = b) (_ : Shape g.n g.adj v A) (_ : Shape g.n g.adj v B)
          (_ : ∀ x ∈ A.labels, x < 2 * g.n - 2) (_ : ∀ x ∈ B.labels, x < 2 * g.n - 2)
          (_ : ∀ {g : Uct}, g.Memo → ∀ {p : Nat}, Shape g.n g.adj p A → p < 2 * g.n - 2 → (∀ x ∈ A.labels, x < 2 * g.n - 2) →
            ∀ {fuel : Nat}, A.labels.length ≤ fuel → Cut g.n g.adj g.root.1 g.root.2 Ru Rv →
            ∃ g' s, preprocess fuel g p A.top = some (g', s) ∧ g'.Memo ∧ More g g' ∧ g'.side p A.top = some s)
          (_ : ∀ {g : Uct}, g.Memo → ∀ {p : Nat}, Shape g.n g.adj p B → p < 2 * g.n - 2 → (∀ x ∈ B.labels, x < 2 * g.n - 2) →
            ∀ {fuel : Nat}, B.labels.length ≤ fuel → Cut g.n g.adj g.root.1 g.root.2 Ru Rv →
            ∃ g' s, preprocess fuel g p B.top = some (g', s) ∧ g'.Memo ∧ More g g' ∧ g'.side p B.top = some s)
          (_ : A.labels.length ≤ f) (_ : B.labels.length ≤ f),
          ∃ g1 d0 g2 d1, preprocess f g v a = some (g1, d0) ∧ preprocess f g1 v b = some (g2, d1) ∧
            (g2.setSide p v (some (d0 ∪ d1))).Memo ∧ More g (g2.setSide p v (some (d0 ∪ d1))) := by
        intro A B tA tB sA sB lA lB iA iB fA fB
        obtain ⟨g1, d0, x1, x2, x3, x4⟩ := iA h sA hv lA fA hc
        obtain ⟨g2, d1, y1, y2, y3, y4⟩ := iB (g := g1) x2 (p := v) (by rw [x3.n, x3.adj]; exact sB) (by rw [x3.n]; exact hv)
          (by rw [x3.n]; exact lB) fB (by
            have hr : g1.root = g.root := by rw [x3.eq]
            rw [x3.n, x3.adj, hr]
            exact hc)
        have x5 := y3.keep _ _ _ x4
        rw [tA] at x1 x5
        rw [tB] at y1 y4
        have hm := x3.trans y3
        have hnb : g2.nb v = g.nb v := nb_adj hm.adj v
        have hval : ((g2.nb v).erase p).biUnion (g2.sd v) = d0 ∪ d1 := by
          rw [hnb, show g.nb v = (g.adj v).toFinset from rfl, e2, Finset.biUnion_insert, Finset.singleton_biUnion]
          unfold sd
          rw [x5, y4]
          rfl
        have hch : ∀ c ∈ g2.adj v, c ≠ p → (g2.side v c).isSome := by
          intro c hc1 hc2
          rw [hm.adj] at hc1
          have : c = a ∨ c = b := by
            have := e4.subset hc1
            simp only [List.mem_cons, List.not_mem_nil, or_false] at this
            tauto
          rcases this with rfl | rfl
          · rw [x5]; rfl
          · rw [y4]; rfl
        obtain ⟨z1, z2⟩ := y2.set (u := p) (v := v) (s := d0 ∪ d1) hne (by
            cases hq : g2.side p v with
            | none => exact Or.inl rfl
            | some q =>
              right
              have := (y2 p v (by rw [hm.n]; exact hp) (by rw [hm.adj]; exact (hn.2.2 p mp).1) q hq).2 (by rw [hm.n]; exact hs.1)
              rw [this.2, hval]) (fun e => absurd e (by rw [hm.n]; exact Nat.not_lt.2 hs.1)) (fun _ => ⟨hch, hval.symm⟩)
        exact ⟨g1, d0, g2, d1, x1, y1, z1, hm.trans z2⟩
      have hcase : (l.top = a ∧ r.top = b) ∨ (r.top = a ∧ l.top = b) := by
        have ha := hperm.subset (List.mem_cons_self (a := a) (l := [b]))
        have hb := hperm.subset (show b ∈ [a, b] by simp)
        simp only [List.mem_cons, List.not_mem_nil, or_false] at ha hb
        rcases ha with ha | ha
        · rcases hb with hb | hb
          · exact absurd (ha.trans hb.symm) e3
          · exact Or.inl ⟨ha.symm, hb.symm⟩
        · rcases hb with hb | hb
          · exact Or.inr ⟨ha.symm, hb.symm⟩
          · exact absurd (ha.trans hb.symm) e3
      obtain ⟨g1, d0, g2, d1, x1, x2, x3, x4⟩ : ∃ g1 d0 g2 d1, preprocess f g v a = some (g1, d0) ∧ preprocess f g1 v b = some (g2, d1) ∧
            (g2.setSide p v (some (d0 ∪ d1))).Memo ∧ More g (g2.setSide p v (some (d0 ∪ d1))) := by
        rcases hcase with ⟨t1, t2⟩ | ⟨t1, t2⟩
        · exact key t1 t2 hs.2.2.1 hs.2.2.2 hll hlr ihl ihr (by omega) (by omega)
        · exact key t1 t2 hs.2.2.2 hs.2.2.1 hlr hll ihr ihl (by omega) (by omega)
      simp only [e1, x1, x2]
      exact ⟨_, _, rfl, x3, x4, by rw [setSide_side, if_pos ⟨rfl, rfl⟩]⟩

end Uct

end Verif
