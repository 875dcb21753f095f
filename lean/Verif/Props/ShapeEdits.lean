import Verif.Lemmas.Consistent
import Verif.Base.Shp
/-! # C14: effect of node and edge edits on the shape -/

namespace Verif

variable {τ : Type}

/-- The dimensions of a list of edges, read from an edge table. -/
def dimsOf (E : Dict Nm EdgeRec) (l : List Nm) : Option (List (Option Nat)) :=
  l.mapM fun e => (E.get? e).map EdgeRec.dim

theorem dimsOf_cons (E : Dict Nm EdgeRec) (e : Nm) (l : List Nm) :
    dimsOf E (e :: l) = ((E.get? e).map EdgeRec.dim).bind fun d => (dimsOf E l).map (d :: ·) := by
  unfold dimsOf
  rw [List.mapM_cons]
  cases (E.get? e).map EdgeRec.dim with
  | none => rfl
  | some d => cases List.mapM (fun e => Option.map EdgeRec.dim (E.get? e)) l <;> rfl

theorem dimsOf_append (E : Dict Nm EdgeRec) (l l' : List Nm) :
    dimsOf E (l ++ l') = (dimsOf E l).bind fun s => (dimsOf E l').map (s ++ ·) := by
  induction l with
  | nil => simp [dimsOf]
  | cons e l ih =>
    rw [List.cons_append, dimsOf_cons, dimsOf_cons, ih]
    cases (E.get? e).map EdgeRec.dim with
    | none => rfl
    | some d =>
      cases dimsOf E l with
      | none => rfl
      | some s => cases dimsOf E l' <;> rfl

theorem dimsOf_congr {E E' : Dict Nm EdgeRec} {l : List Nm}
    (h : ∀ e ∈ l, (E'.get? e).map EdgeRec.dim = (E.get? e).map EdgeRec.dim) : dimsOf E' l = dimsOf E l := by
  induction l with
  | nil => rfl
  | cons e l ih => rw [dimsOf_cons, dimsOf_cons, h e (by simp), ih fun e he => h e (by simp [he])]

theorem dimsOf_exists {E : Dict Nm EdgeRec} {l : List Nm} (h : ∀ e ∈ l, e ∈ E.keys) :
    ∃ s, dimsOf E l = some s := by
  induction l with
  | nil => exact ⟨[], rfl⟩
  | cons e l ih =>
    obtain ⟨r, hr⟩ := Dict.exists_get? (h e (by simp))
    obtain ⟨s, hs⟩ := ih fun e he => h e (by simp [he])
    exact ⟨r.dim :: s, by rw [dimsOf_cons, hr, hs]; rfl⟩

theorem dimsOf_eraseIdx {E : Dict Nm EdgeRec} {l : List Nm} {s : List (Option Nat)} (h : dimsOf E l = some s)
    (i : Nat) : dimsOf E (l.eraseIdx i) = some (s.eraseIdx i) := by
  induction l generalizing s i with
  | nil => simp [dimsOf] at h; subst h; simp [dimsOf]
  | cons e l ih =>
    rw [dimsOf_cons] at h
    cases hd : (E.get? e).map EdgeRec.dim with
    | none => rw [hd] at h; simp at h
    | some d =>
      cases hl : dimsOf E l with
      | none => rw [hd, hl] at h; simp at h
      | some s' =>
        rw [hd, hl] at h
        simp only [Option.bind_some, Option.map_some, Option.some.injEq] at h
        subst h
        cases i with
        | zero => simpa using hl
        | succ i => rw [List.eraseIdx_cons_succ, dimsOf_cons, hd, ih hl i]; rfl

theorem shape?_eq (tn : TN τ) : tn.shape? = dimsOf tn.edges tn.openE := rfl

/-- C14, `open_edge`: the dimension of that edge is appended; a new edge gets the given dimension. -/
theorem c14_open_edge {tn tn' : TN τ} {e : Nm} {dim : Option Nat} {sh : List (Option Nat)}
    (hsh : tn.shape? = some sh) (h : tn.openEdge e dim = (tn', .ok ())) :
    ∃ r, tn'.edges.get? e = some r ∧ tn'.shape? = some (sh ++ [r.dim]) ∧
      (∀ r0, tn.edges.get? e = some r0 → r = r0) ∧ (e ∉ tn.edges.keys → r.dim = dim) := by
  unfold TN.openEdge at h
  by_cases he : tn.edges.has e = true
  · rw [if_pos he] at h
    simp only [Prod.mk.injEq, and_true] at h
    subst h
    have hk := Dict.has_iff.1 he
    obtain ⟨r, hr⟩ := Dict.exists_get? hk
    refine ⟨r, hr, ?_, fun r0 h0 => by rw [hr] at h0; exact Option.some.inj h0, fun h => absurd hk h⟩
    rw [shape?_eq] at hsh ⊢
    show dimsOf tn.edges (tn.openE ++ [e]) = _
    rw [dimsOf_append, hsh, dimsOf_cons, hr]; rfl
  · rw [if_neg he] at h
    have hk : e ∉ tn.edges.keys := fun hc => he (Dict.has_iff.2 hc)
    simp only [TN.addEdge, TN.addEdgeNamed, if_neg he, Prod.mk.injEq, and_true] at h
    subst h
    refine ⟨{ dim := dim }, ?_, ?_, fun r0 h0 => absurd (Dict.mem_keys_of_get? h0) hk, fun _ => rfl⟩
    · show Dict.get? (Dict.set _ _ _) e = _
      rw [Dict.get?_set, if_pos rfl]
    · show dimsOf (Dict.set tn.edges e { dim := dim }) (tn.openE ++ [e]) = _
      have h1 : dimsOf (Dict.set tn.edges e { dim := dim }) tn.openE = some sh := by
        rw [← hsh]
        refine dimsOf_congr fun e' he' => ?_
        rw [Dict.get?_set, if_neg]
        rintro rfl
        have : ∀ l : List Nm, e ∈ l → dimsOf tn.edges l = none := by
          intro l
          induction l with
          | nil => simp
          | cons a l ih =>
            intro hm
            rw [dimsOf_cons]
            rcases List.mem_cons.1 hm with rfl | hm
            · rw [Dict.get?_eq_none.2 hk]; rfl
            · rw [ih hm]; cases (tn.edges.get? a).map EdgeRec.dim <;> rfl
        rw [shape?_eq, this _ he'] at hsh
        simp at hsh
      rw [dimsOf_append, h1, dimsOf_cons, Dict.get?_set, if_pos rfl]; rfl

/-- C14, `close_edge`: the positions holding that edge disappear, the others stay in order. -/
theorem c14_close_edge {tn : TN τ} {e : Nm} {sh : List (Option Nat)} (hsh : tn.shape? = some sh) :
    (tn.closeEdge e).shape? = some (((tn.openE.zip sh).filter (fun p => p.1 ≠ e)).map Prod.snd) := by
  rw [shape?_eq] at hsh ⊢
  show dimsOf tn.edges (tn.openE.filter (· ≠ e)) = _
  generalize tn.openE = l at hsh ⊢
  induction l generalizing sh with
  | nil => rfl
  | cons a l ih =>
    rw [dimsOf_cons] at hsh
    cases hd : (tn.edges.get? a).map EdgeRec.dim with
    | none => rw [hd] at hsh; simp at hsh
    | some d =>
      cases hl : dimsOf tn.edges l with
      | none => rw [hd, hl] at hsh; simp at hsh
      | some s =>
        rw [hd, hl] at hsh
        simp only [Option.bind_some, Option.map_some, Option.some.injEq] at hsh
        subst hsh
        by_cases hae : a = e
        · simp only [List.zip_cons_cons, List.filter_cons, hae, ne_eq, not_true, decide_false,
            Bool.false_eq_true, if_false]
          exact ih hl
        · simp only [List.zip_cons_cons, List.filter_cons, ne_eq, hae, not_false_eq_true, decide_true,
            if_true, List.map_cons]
          rw [dimsOf_cons, hd]
          have := ih hl
          simp only [ne_eq] at this
          rw [this]; rfl

/-- C14, `pop_node`: the shape is unchanged. -/
theorem c14_pop_node (tn : TN τ) (n : Nm) : (tn.popNode n).1.shape? = tn.shape? := by
  unfold TN.popNode
  split <;> rfl

/-- C14, `remove_node`: the dimensions of the legs of the removed node are appended. -/
theorem c14_remove_node {tn tn' : TN τ} {n : Nm} {r : NodeRec τ} {sh : List (Option Nat)}
    (hc : tn.Consistent) (hsh : tn.shape? = some sh) (h : tn.removeNode n = (tn', .ok r)) :
    tn.nodes.get? n = some r ∧ ∃ s, tn'.shape? = some (sh ++ s) ∧ s.length = r.legs.length ∧
      ∀ (i : Nat) e, r.legs[i]? = some e → ∃ d, tn.edges.get? e = some d ∧ s[i]? = some d.dim := by
  unfold TN.removeNode TN.popNode at h
  cases hn : tn.nodes.get? n with
  | none => rw [hn] at h; simp at h
  | some r0 =>
    rw [hn] at h
    simp only [Prod.mk.injEq, Except.ok.injEq] at h
    obtain ⟨h1, rfl⟩ := h
    subst h1
    refine ⟨rfl, ?_⟩
    obtain ⟨s, hs⟩ := dimsOf_exists fun e he => hc.legs_exist n r0 hn e he
    refine ⟨s, ?_, ?_⟩
    · show dimsOf tn.edges (tn.openE ++ r0.legs) = _
      rw [dimsOf_append, ← shape?_eq, hsh, hs]; rfl
    · generalize r0.legs = l at hs
      induction l generalizing s with
      | nil => simp [dimsOf] at hs; subst hs; simp
      | cons a l ih =>
        rw [dimsOf_cons] at hs
        cases hd : tn.edges.get? a with
        | none => rw [hd] at hs; simp at hs
        | some d =>
          cases hl : dimsOf tn.edges l with
          | none => rw [hd, hl] at hs; simp at hs
          | some s' =>
            rw [hd, hl] at hs
            simp only [Option.bind_some, Option.map_some, Option.some.injEq] at hs
            subst hs
            obtain ⟨i1, i2⟩ := ih s' hl
            refine ⟨by simp [i1], fun i e hi => ?_⟩
            cases i with
            | zero => simp only [List.getElem?_cons_zero, Option.some.injEq] at hi; subst hi; exact ⟨d, hd, rfl⟩
            | succ i => simpa using i2 i e (by simpa using hi)

/-- C14, `fix_index(i)`: exactly position `i` disappears. -/
theorem c14_fix_index {tn tn' : TN τ} {i v : Nat} {sh : List (Option Nat)}
    (hsh : tn.shape? = some sh) (h : tn.fixIndex i v = (tn', .ok ())) :
    i < sh.length ∧ tn'.shape? = some (sh.eraseIdx i) := by
  unfold TN.fixIndex at h
  have hlen : ∀ (l : List Nm) (s : List (Option Nat)), dimsOf tn.edges l = some s → s.length = l.length := by
    intro l
    induction l with
    | nil => intro s hs; simp [dimsOf] at hs; subst hs; rfl
    | cons a l ih =>
      intro s hs
      rw [dimsOf_cons] at hs
      cases hd : (tn.edges.get? a).map EdgeRec.dim with
      | none => rw [hd] at hs; simp at hs
      | some d =>
        cases hl : dimsOf tn.edges l with
        | none => rw [hd, hl] at hs; simp at hs
        | some s' =>
          rw [hd, hl] at hs
          simp only [Option.bind_some, Option.map_some, Option.some.injEq] at hs
          subst hs; simp [ih s' hl]
  cases he : tn.openE[i]? with
  | none => rw [he] at h; simp at h
  | some e =>
    rw [he] at h
    simp only at h
    have hfr := TN.fixEdge_frame tn e [v] false
    revert h hfr
    generalize tn.fixEdge e [v] = res
    obtain ⟨t, o⟩ := res
    intro h hfr
    cases o with
    | error er => simp at h
    | ok u =>
      simp only [Prod.mk.injEq, and_true] at h
      refine ⟨?_, ?_⟩
      · rw [hlen _ _ hsh]
        obtain ⟨hi, _⟩ := List.getElem?_eq_some_iff.1 he
        exact hi
      · have hE : t.openE = tn.openE ∧ ∀ e', (t.edges.get? e').map EdgeRec.dim = (tn.edges.get? e').map EdgeRec.dim := by
          rcases hfr with h1 | ⟨r, f, hr, h1⟩
          · have h1 : t = tn := h1
            subst h1; exact ⟨rfl, fun _ => rfl⟩
          · have h1 : t = _ := h1
            subst h1
            refine ⟨rfl, fun e' => ?_⟩
            show (Dict.get? (Dict.set _ _ _) e').map _ = _
            rw [Dict.get?_set]
            by_cases hee : e = e'
            · subst hee; rw [if_pos rfl, hr]; rfl
            · rw [if_neg hee]
        subst h
        show dimsOf t.edges (t.openE.eraseIdx i) = _
        rw [hE.1, dimsOf_congr fun e' _ => hE.2 e']
        exact dimsOf_eraseIdx hsh i

/-- A network meeting the hypotheses of all the theorems above: a repeated open edge, an isolated one, and a
node with legs to remove. -/
def shapeExample : List (Op Shp) :=
  [.addNode (some (.int 0)) (.int 0) (some [.str "a", .str "b"]) (shp [2, 3]) true,
   .openEdge (.str "a") none, .openEdge (.str "w") (some 7)]

example : ∃ tn : TN Shp, TN.run {} shapeExample = some tn ∧
    tn.shape? = some [some 2, some 3, some 2, some 7] ∧
    (tn.closeEdge (.str "a")).shape? = some [some 3, some 7] ∧
    (∃ t, tn.openEdge (.str "b") none = (t, .ok ()) ∧ t.shape? = some [some 2, some 3, some 2, some 7, some 3]) ∧
    (∃ t r, tn.removeNode (.int 0) = (t, .ok r) ∧
      t.shape? = some [some 2, some 3, some 2, some 7, some 2, some 3]) ∧
    (∃ t, tn.fixIndex 1 2 = (t, .ok ()) ∧ t.shape? = some [some 2, some 2, some 7]) :=
  ⟨_, rfl, rfl, rfl, ⟨_, rfl, rfl⟩, ⟨_, _, rfl, rfl⟩, ⟨_, rfl, rfl⟩⟩

end Verif
