import Verif.Lemmas.Copy
/-! # Objects in a store -/

namespace Verif

variable {τ α : Type}

/-- The old cells among those asked for. -/
def olds (l : List (Option (Write × Option Nat × α))) : List Nat :=
  l.filterMap fun s => s.bind fun q => if q.1 = .fresh then none else q.2.1

theorem cellsFor_spec (l : List (Option (Write × Option Nat × α))) (H : List α) (hn : (olds l).Nodup)
    (hb : ∀ x ∈ olds l, x < H.length)
    (hk : ∀ o v, some (Write.keep, o, v) ∈ l → ∃ x, o = some x ∧ H[x]? = some v) :
    H.length ≤ (cellsFor l H).2.length ∧
    (∀ x < H.length, (∀ v, some (Write.inPlace, some x, v) ∉ l) → (cellsFor l H).2[x]? = H[x]?) ∧
    List.Forall₂ (fun s a => (s = none → a = none) ∧ ∀ w o v, s = some (w, o, v) → ∃ x, a = some x ∧ (cellsFor l H).2[x]? = some v)
      l (cellsFor l H).1 ∧
    ((cellsFor l H).1.filterMap id).Nodup ∧ ∀ a ∈ (cellsFor l H).1.filterMap id, a ∈ olds l ∨ H.length ≤ a := by
  induction l generalizing H with
  | nil => exact ⟨Nat.le_refl _, fun _ _ _ => rfl, .nil, List.nodup_nil, fun a h => by cases h⟩
  | cons s l ih =>
    cases s with
    | none =>
      obtain ⟨h1, h2, h3, h4, h5⟩ := ih H hn hb fun o v h => hk o v (List.mem_cons_of_mem _ h)
      refine ⟨h1, fun x hx hw => h2 x hx fun v h => hw v (List.mem_cons_of_mem _ h), ?_, ?_, ?_⟩
      · exact .cons ⟨fun _ => rfl, fun _ _ _ h => by cases h⟩ h3
      · simpa [cellsFor] using h4
      · simpa [cellsFor, olds] using h5
    | some q =>
      obtain ⟨w, o, v⟩ := q
      -- a new cell
      have alloc : (w = .fresh ∨ o = none) → cellFor H w o v = (H.length, H ++ [v]) →
          olds (some (w, o, v) :: l) = olds l → _ := fun _ hc ho => by
        rw [ho] at hn hb
        obtain ⟨h1, h2, h3, h4, h5⟩ := ih (H ++ [v]) hn (fun x hx => by have := hb x hx; simp; omega)
          (fun o' v' h => by
            obtain ⟨x, rfl, hx⟩ := hk o' v' (List.mem_cons_of_mem _ h)
            have hlt : x < H.length := by
              by_contra hc; rw [List.getElem?_eq_none (by omega)] at hx; cases hx
            exact ⟨x, rfl, by rw [List.getElem?_append_left hlt, hx]⟩)
        simp only [List.length_append, List.length_cons, List.length_nil] at h1 h2 h5
        have hnp : ∀ v', some (Write.inPlace, some H.length, v') ∉ l := fun v' h => by
          have : H.length ∈ olds l := List.mem_filterMap.2 ⟨_, h, rfl⟩
          exact absurd (hb _ this) (by omega)
        refine (⟨?_, ?_, ?_, ?_, ?_⟩ : H.length ≤ (cellsFor (some (w, o, v) :: l) H).2.length ∧
          (∀ x < H.length, (∀ v', some (Write.inPlace, some x, v') ∉ some (w, o, v) :: l) →
            (cellsFor (some (w, o, v) :: l) H).2[x]? = H[x]?) ∧
          List.Forall₂ (fun s a => (s = none → a = none) ∧ ∀ w' o' v', s = some (w', o', v') →
              ∃ x, a = some x ∧ (cellsFor (some (w, o, v) :: l) H).2[x]? = some v')
            (some (w, o, v) :: l) (cellsFor (some (w, o, v) :: l) H).1 ∧
          ((cellsFor (some (w, o, v) :: l) H).1.filterMap id).Nodup ∧
          ∀ a ∈ (cellsFor (some (w, o, v) :: l) H).1.filterMap id, a ∈ olds (some (w, o, v) :: l) ∨ H.length ≤ a)
        all_goals simp only [cellsFor, hc]
        · omega
        · intro x hx hw
          rw [h2 x (by omega) fun v' h => hw v' (List.mem_cons_of_mem _ h), List.getElem?_append_left hx]
        · refine .cons ⟨(fun h => by cases h), fun w' o' v' h => ?_⟩ h3
          cases h
          exact ⟨_, rfl, by rw [h2 _ (by omega) hnp]; simp⟩
        · simp only [List.filterMap_cons, id]
          refine List.nodup_cons.2 ⟨fun h => ?_, h4⟩
          rcases h5 _ h with h | h
          · exact absurd (hb _ h) (by omega)
          · omega
        · intro a ha
          simp only [List.filterMap_cons, id, List.mem_cons] at ha
          rw [ho]
          rcases ha with rfl | ha
          · exact Or.inr (Nat.le_refl _)
          · rcases h5 _ ha with h | h
            · exact Or.inl h
            · exact Or.inr (by omega)
      cases o with
      | none =>
        refine alloc (Or.inr rfl) (by cases w <;> rfl) ?_
        cases w <;> rfl
      | some x =>
        cases w with
        | fresh => exact alloc (Or.inl rfl) rfl rfl
        | keep =>
          have ho : olds (some (Write.keep, some x, v) :: l) = x :: olds l := rfl
          rw [ho] at hn hb
          rw [List.nodup_cons] at hn
          obtain ⟨y, hy, hv⟩ := hk _ _ (List.mem_cons_self)
          cases hy
          have hx : x < H.length := hb x List.mem_cons_self
          obtain ⟨h1, h2, h3, h4, h5⟩ := ih H hn.2 (fun x hx => hb x (List.mem_cons_of_mem _ hx))
            (fun o v h => hk o v (List.mem_cons_of_mem _ h))
          have hnp : ∀ v', some (Write.inPlace, some x, v') ∉ l := fun v' h =>
            hn.1 (List.mem_filterMap.2 ⟨_, h, rfl⟩)
          simp only [cellsFor, cellFor]
          refine ⟨h1, fun x hx hw => h2 x hx fun v h => hw v (List.mem_cons_of_mem _ h), ?_, ?_, ?_⟩
          · refine .cons ⟨(fun h => by cases h), fun w' o' v' h => ?_⟩ h3
            cases h
            exact ⟨x, rfl, by rw [h2 x hx hnp, hv]⟩
          · simp only [List.filterMap_cons, id]
            refine List.nodup_cons.2 ⟨fun h => ?_, h4⟩
            rcases h5 _ h with h | h
            · exact hn.1 h
            · omega
          · intro a ha
            simp only [List.filterMap_cons, id, List.mem_cons] at ha
            rw [ho]
            rcases ha with rfl | ha
            · exact Or.inl List.mem_cons_self
            · rcases h5 _ ha with h | h
              · exact Or.inl (List.mem_cons_of_mem _ h)
              · exact Or.inr h
        | inPlace =>
          have ho : olds (some (Write.inPlace, some x, v) :: l) = x :: olds l := rfl
          rw [ho] at hn hb
          rw [List.nodup_cons] at hn
          have hx : x < H.length := hb x List.mem_cons_self
          obtain ⟨h1, h2, h3, h4, h5⟩ := ih (H.set x v) hn.2
            (fun y hy => by rw [List.length_set]; exact hb y (List.mem_cons_of_mem _ hy))
            (fun o v' h => by
              obtain ⟨y, rfl, hy⟩ := hk o v' (List.mem_cons_of_mem _ h)
              refine ⟨y, rfl, ?_⟩
              have : y ∈ olds l := List.mem_filterMap.2 ⟨_, h, rfl⟩
              rw [List.getElem?_set_ne (by rintro rfl; exact hn.1 this), hy])
          rw [List.length_set] at h1 h2 h5
          have hnp : ∀ v', some (Write.inPlace, some x, v') ∉ l := fun v' h =>
            hn.1 (List.mem_filterMap.2 ⟨_, h, rfl⟩)
          simp only [cellsFor, cellFor]
          refine ⟨h1, fun y hy hw => ?_, ?_, ?_, ?_⟩
          · rw [h2 y hy fun v h => hw v (List.mem_cons_of_mem _ h), List.getElem?_set_ne]
            rintro rfl
            exact hw v List.mem_cons_self
          · refine .cons ⟨(fun h => by cases h), fun w' o' v' h => ?_⟩ h3
            cases h
            exact ⟨x, rfl, by rw [h2 x hx hnp]; simp [hx]⟩
          · simp only [List.filterMap_cons, id]
            refine List.nodup_cons.2 ⟨fun h => ?_, h4⟩
            rcases h5 _ h with h | h
            · exact hn.1 h
            · omega
          · intro a ha
            simp only [List.filterMap_cons, id, List.mem_cons] at ha
            rw [ho]
            rcases ha with rfl | ha
            · exact Or.inl List.mem_cons_self
            · rcases h5 _ ha with h | h
              · exact Or.inl (List.mem_cons_of_mem _ h)
              · exact Or.inr h

theorem nodup_filterMap_key {β : Type} {l : List (Nm × β)} (hl : (l.map Prod.fst).Nodup) {f : Nm × β → Option Nat}
    (hf : ∀ p ∈ l, ∀ p' ∈ l, ∀ x, f p = some x → f p' = some x → p.1 = p'.1) : (l.filterMap f).Nodup := by
  induction l with
  | nil => exact List.nodup_nil
  | cons p l ih =>
    rw [List.map_cons, List.nodup_cons] at hl
    have ih := ih hl.2 fun p hp p' hp' => hf p (List.mem_cons_of_mem _ hp) p' (List.mem_cons_of_mem _ hp')
    cases hp : f p with
    | none => rwa [List.filterMap_cons_none hp]
    | some x =>
      rw [List.filterMap_cons_some hp, List.nodup_cons]
      refine ⟨fun h => ?_, ih⟩
      obtain ⟨p', hm, hp'⟩ := List.mem_filterMap.1 h
      exact hl.1 (hf p List.mem_cons_self p' (List.mem_cons_of_mem _ hm) x hp hp' ▸ List.mem_map_of_mem hm)

/-- The list objects of the legs that an object refers to. -/
def HTN.legRefs (o : HTN τ) : List Nat := o.nodes.map fun p => p.2.ref

/-- The list objects of fixed values that an object refers to. -/
def HTN.fixRefs (o : HTN τ) : List Nat := o.edges.filterMap fun p => p.2.fix

/-- An object in a store: its references are to lists of the store, and to different ones. -/
structure HTN.Ok (h : Store) (o : HTN τ) : Prop where
  nodes : o.nodes.keys.Nodup
  edges : o.edges.keys.Nodup
  legs_nodup : o.legRefs.Nodup
  fixes_nodup : o.fixRefs.Nodup
  legs_lt : ∀ x ∈ o.legRefs, x < h.legs.length
  fixes_lt : ∀ x ∈ o.fixRefs, x < h.fixes.length

theorem zip_nodes {L : List (List Nm)} (W : Nm × NodeRec τ → Write × Option Nat) (ns : List (Nm × NodeRec τ)) (rs : List (Option Nat))
    (h : List.Forall₂ (fun s a => (s = none → a = none) ∧ ∀ w o v, s = some (w, o, v) → ∃ x, a = some x ∧ L[x]? = some v)
      (ns.map fun p => some ((W p).1, (W p).2, p.2.legs)) rs) :
    (List.zipWith (fun p x => ((p.1, ⟨x.getD 0, p.2.ten, p.2.frozen⟩) : Nm × HNode τ)) ns rs).map
      (fun p => (p.1, (⟨(L[p.2.ref]?).getD [], p.2.ten, p.2.frozen⟩ : NodeRec τ))) = ns ∧
    (List.zipWith (fun p x => ((p.1, ⟨x.getD 0, p.2.ten, p.2.frozen⟩) : Nm × HNode τ)) ns rs).map (fun p => p.2.ref) = rs.filterMap id := by
  induction ns generalizing rs with
  | nil => cases h; exact ⟨rfl, rfl⟩
  | cons p ns ih =>
    rw [List.map_cons] at h
    cases h with
    | cons h1 h2 =>
      obtain ⟨h3, h4⟩ := ih _ h2
      obtain ⟨x, rfl, hx⟩ := h1.2 _ _ _ rfl
      constructor
      · rw [List.zipWith_cons_cons, List.map_cons, h3]
        simp only [Option.getD_some, hx]
      · rw [List.zipWith_cons_cons, List.map_cons, h4]
        rfl

theorem zip_edges {L : List (List Nat)} (W : Nm × EdgeRec → Write × Option Nat) (ns : List (Nm × EdgeRec)) (rs : List (Option Nat))
    (h : List.Forall₂ (fun s a => (s = none → a = none) ∧ ∀ w o v, s = some (w, o, v) → ∃ x, a = some x ∧ L[x]? = some v)
      (ns.map fun p => p.2.fix.map fun f => ((W p).1, (W p).2, f)) rs) :
    (List.zipWith (fun p x => ((p.1, ⟨p.2.dim, x⟩) : Nm × HEdge)) ns rs).map
      (fun p => (p.1, (⟨p.2.dim, p.2.fix.map fun x => (L[x]?).getD []⟩ : EdgeRec))) = ns ∧
    (List.zipWith (fun p x => ((p.1, ⟨p.2.dim, x⟩) : Nm × HEdge)) ns rs).filterMap (fun p => p.2.fix) = rs.filterMap id := by
  induction ns generalizing rs with
  | nil => cases h; exact ⟨rfl, rfl⟩
  | cons p ns ih =>
    rw [List.map_cons] at h
    cases h with
    | cons h1 h2 =>
      obtain ⟨h3, h4⟩ := ih _ h2
      obtain ⟨n, ⟨d, f⟩⟩ := p
      cases f with
      | none =>
        obtain rfl := h1.1 rfl
        exact ⟨by rw [List.zipWith_cons_cons, List.map_cons, h3]; rfl,
          by
            rw [List.zipWith_cons_cons, List.filterMap_cons_none (f := fun p : Nm × HEdge => p.2.fix) rfl,
              List.filterMap_cons_none (f := id) rfl, h4]⟩
      | some f =>
        obtain ⟨x, rfl, hx⟩ := h1.2 _ _ _ rfl
        exact ⟨by rw [List.zipWith_cons_cons, List.map_cons, h3]; simp [hx],
          by
            rw [List.zipWith_cons_cons, List.filterMap_cons_some (f := fun p : Nm × HEdge => p.2.fix) (b := x) rfl,
              List.filterMap_cons_some (f := id) (b := x) rfl, h4]⟩

namespace HTN

theorem view_node {h : Store} {o : HTN τ} (hv : o.Ok h) {n : Nm} {r : NodeRec τ} (hr : (o.view h).nodes.get? n = some r) :
    ∃ a, o.nodes.get? n = some a ∧ a.ref ∈ o.legRefs ∧ h.legs[a.ref]? = some r.legs := by
  unfold view at hr
  dsimp only at hr
  rw [Dict.get?_map_val o.nodes (fun _ a => (⟨(h.legs[a.ref]?).getD [], a.ten, a.frozen⟩ : NodeRec τ)) n] at hr
  cases ha : o.nodes.get? n with
  | none => rw [ha] at hr; cases hr
  | some a =>
    rw [ha] at hr
    simp only [Option.map_some, Option.some.injEq] at hr
    have hm : a.ref ∈ o.legRefs := List.mem_map.2 ⟨_, Dict.mem_of_get? ha, rfl⟩
    refine ⟨a, rfl, hm, ?_⟩
    rw [← hr]
    have := hv.legs_lt _ hm
    simp [this]

theorem view_edge {h : Store} {o : HTN τ} (hv : o.Ok h) {e : Nm} {r : EdgeRec} {f : List Nat}
    (hr : (o.view h).edges.get? e = some r) (hf : r.fix = some f) :
    ∃ a x, o.edges.get? e = some a ∧ a.fix = some x ∧ x ∈ o.fixRefs ∧ h.fixes[x]? = some f := by
  unfold view at hr
  dsimp only at hr
  rw [Dict.get?_map_val o.edges (fun _ a => (⟨a.dim, a.fix.map fun x => (h.fixes[x]?).getD []⟩ : EdgeRec)) e] at hr
  cases ha : o.edges.get? e with
  | none => rw [ha] at hr; cases hr
  | some a =>
    rw [ha] at hr
    simp only [Option.map_some, Option.some.injEq] at hr
    rw [← hr] at hf
    cases hx : a.fix with
    | none => simp [hx] at hf
    | some x =>
      have hm : x ∈ o.fixRefs := List.mem_filterMap.2 ⟨_, Dict.mem_of_get? ha, hx⟩
      refine ⟨a, x, rfl, hx, hm, ?_⟩
      have := hv.fixes_lt _ hm
      simpa [hx, this] using hf

theorem view_keys (h : Store) (o : HTN τ) : (o.view h).nodes.keys = o.nodes.keys ∧ (o.view h).edges.keys = o.edges.keys := by
  simp [view, Dict.keys, Function.comp_def]

theorem ref_inj {h : Store} {o : HTN τ} (hv : o.Ok h) {n n' : Nm} {a a' : HNode τ} (ha : o.nodes.get? n = some a)
    (ha' : o.nodes.get? n' = some a') (hr : a.ref = a'.ref) : n = n' := by
  have := List.inj_on_of_nodup_map hv.legs_nodup (Dict.mem_of_get? ha) (Dict.mem_of_get? ha') hr
  exact congrArg Prod.fst this

theorem fix_inj {h : Store} {o : HTN τ} (hv : o.Ok h) {n n' : Nm} {a a' : HEdge} {x : Nat} (ha : o.edges.get? n = some a)
    (ha' : o.edges.get? n' = some a') (hr : a.fix = some x) (hr' : a'.fix = some x) : n = n' := by
  have hnd := hv.fixes_nodup
  unfold fixRefs at hnd
  have h1 := Dict.mem_of_get? ha
  have h2 := Dict.mem_of_get? ha'
  generalize o.edges = l at hnd h1 h2
  induction l with
  | nil => cases h1
  | cons p l ih =>
    rcases List.mem_cons.1 h1 with rfl | k1
    · rcases List.mem_cons.1 h2 with h2 | h2
      · exact (congrArg Prod.fst h2).symm
      · rw [List.filterMap_cons_some (f := fun p : Nm × HEdge => p.2.fix) (b := x) hr, List.nodup_cons] at hnd
        exact absurd (List.mem_filterMap.2 ⟨_, h2, hr'⟩) hnd.1
    · rcases List.mem_cons.1 h2 with rfl | h2
      · rw [List.filterMap_cons_some (f := fun p : Nm × HEdge => p.2.fix) (b := x) hr', List.nodup_cons] at hnd
        exact absurd (List.mem_filterMap.2 ⟨_, k1, hr⟩) hnd.1
      · refine ih ?_ k1 h2
        cases hp : p.2.fix with
        | none => rwa [List.filterMap_cons_none (f := fun p : Nm × HEdge => p.2.fix) hp] at hnd
        | some y => rw [List.filterMap_cons_some (f := fun p : Nm × HEdge => p.2.fix) hp, List.nodup_cons] at hnd; exact hnd.2

/-- Effect of a call on the object and on the store. -/
theorem step_spec [NetTensor τ] {h : Store} {o : HTN τ} (hv : o.Ok h) (op : Op τ) :
    (o.step h op).2.view (o.step h op).1 = ((o.view h).step op).1 ∧ (o.step h op).2.Ok (o.step h op).1 ∧
    h.legs.length ≤ (o.step h op).1.legs.length ∧ h.fixes.length ≤ (o.step h op).1.fixes.length ∧
    (∀ x < h.legs.length, (∀ n a, o.nodes.get? n = some a → a.ref = x → (o.view h).legWrite n op ≠ .inPlace) →
      (o.step h op).1.legs[x]? = h.legs[x]?) ∧
    (∀ x < h.fixes.length, (∀ e a, o.edges.get? e = some a → a.fix = some x → (o.view h).fixWrite e op ≠ .inPlace) →
      (o.step h op).1.fixes[x]? = h.fixes[x]?) ∧
    (∀ x ∈ (o.step h op).2.legRefs, x ∈ o.legRefs ∨ h.legs.length ≤ x) ∧
    (∀ x ∈ (o.step h op).2.fixRefs, x ∈ o.fixRefs ∨ h.fixes.length ≤ x) := by
  obtain ⟨kl, kf⟩ := TN.step_kept (o.view h) op
  have ndN := kl.nodup (by rw [(view_keys h o).1]; exact hv.nodes)
  have ndE := kf.nodup (by rw [(view_keys h o).2]; exact hv.edges)
  revert kl kf ndN ndE
  unfold step
  dsimp only
  generalize (o.view h).legWrite = lw
  generalize (o.view h).fixWrite = fw
  generalize ((o.view h).step op).1 = tn'
  intro kl kf ndN ndE
  generalize hlL : (tn'.nodes.map fun p => some (lw p.1 op, (o.nodes.get? p.1).map HNode.ref, p.2.legs)) = lL
  generalize hlF : (tn'.edges.map fun p => p.2.fix.map fun f => (fw p.1 op, (o.edges.get? p.1).bind HEdge.fix, f)) = lF
  have oL : olds lL = tn'.nodes.filterMap fun p => if lw p.1 op = .fresh then none else (o.nodes.get? p.1).map HNode.ref := by
    rw [← hlL, olds, List.filterMap_map]; rfl
  have oF : olds lF = tn'.edges.filterMap fun p => p.2.fix.bind fun _ =>
      if fw p.1 op = .fresh then none else (o.edges.get? p.1).bind HEdge.fix := by
    rw [← hlF, olds, List.filterMap_map]
    congr 1
    funext p
    simp only [Function.comp]
    cases p.2.fix <;> rfl
  have mL : ∀ x ∈ olds lL, x ∈ o.legRefs := by
    intro x hx
    rw [oL] at hx
    obtain ⟨p, _, hp⟩ := List.mem_filterMap.1 hx
    split at hp
    · cases hp
    · obtain ⟨a, ha, rfl⟩ := Option.map_eq_some_iff.1 hp
      exact List.mem_map.2 ⟨_, Dict.mem_of_get? ha, rfl⟩
  have mF : ∀ x ∈ olds lF, x ∈ o.fixRefs := by
    intro x hx
    rw [oF] at hx
    obtain ⟨p, _, hp⟩ := List.mem_filterMap.1 hx
    obtain ⟨_, _, hp⟩ := Option.bind_eq_some_iff.1 hp
    split at hp
    · cases hp
    · obtain ⟨a, ha, hx⟩ := Option.bind_eq_some_iff.1 hp
      exact List.mem_filterMap.2 ⟨_, Dict.mem_of_get? ha, hx⟩
  obtain ⟨l1, l2, l3, l4, l5⟩ := cellsFor_spec lL h.legs
    (by
      rw [oL]
      refine nodup_filterMap_key ndN fun p _ p' _ x hp hp' => ?_
      split at hp
      · cases hp
      split at hp'
      · cases hp'
      obtain ⟨a, ha, rfl⟩ := Option.map_eq_some_iff.1 hp
      obtain ⟨a', ha', he⟩ := Option.map_eq_some_iff.1 hp'
      exact ref_inj hv ha ha' he.symm)
    (fun x hx => hv.legs_lt x (mL x hx))
    (fun ox v hm => by
      rw [← hlL] at hm
      obtain ⟨p, hp, he⟩ := List.mem_map.1 hm
      simp only [Option.some.injEq, Prod.mk.injEq] at he
      obtain ⟨hw, hx, hl⟩ := he
      obtain ⟨r, hr, hrl⟩ := kl.ent p.1 p.2 (Dict.get?_of_mem ndN hp) hw
      obtain ⟨a, ha, _, hc⟩ := view_node hv hr
      exact ⟨a.ref, by rw [← hx, ha]; rfl, by rw [hc, ← hrl, hl]⟩)
  obtain ⟨f1, f2, f3, f4, f5⟩ := cellsFor_spec lF h.fixes
    (by
      rw [oF]
      refine nodup_filterMap_key ndE fun p _ p' _ x hp hp' => ?_
      obtain ⟨_, _, hp⟩ := Option.bind_eq_some_iff.1 hp
      obtain ⟨_, _, hp'⟩ := Option.bind_eq_some_iff.1 hp'
      split at hp
      · cases hp
      split at hp'
      · cases hp'
      obtain ⟨a, ha, hx⟩ := Option.bind_eq_some_iff.1 hp
      obtain ⟨a', ha', hx'⟩ := Option.bind_eq_some_iff.1 hp'
      exact fix_inj hv ha ha' hx hx')
    (fun x hx => hv.fixes_lt x (mF x hx))
    (fun ox v hm => by
      rw [← hlF] at hm
      obtain ⟨p, hp, he⟩ := List.mem_map.1 hm
      obtain ⟨f, hf, he⟩ := Option.map_eq_some_iff.1 he
      simp only [Prod.mk.injEq] at he
      obtain ⟨hw, hx, hl⟩ := he
      obtain ⟨r, hr, hrf⟩ := kf.ent p.1 p.2 f (Dict.get?_of_mem ndE hp) hf hw
      obtain ⟨a, x, ha, hax, _, hc⟩ := view_edge hv hr hrf
      exact ⟨x, by rw [← hx, ha]; exact hax, by rw [hc, hl]⟩)
  subst hlL hlF
  obtain ⟨zn, zn'⟩ := zip_nodes (fun p => (lw p.1 op, (o.nodes.get? p.1).map HNode.ref)) tn'.nodes _ l3
  obtain ⟨ze, ze'⟩ := zip_edges (fun p => (fw p.1 op, (o.edges.get? p.1).bind HEdge.fix)) tn'.edges _ f3
  refine ⟨?_, ⟨?_, ?_, ?_, ?_, ?_, ?_⟩, l1, f1, fun x hx hw => l2 x hx fun v hm => ?_, fun x hx hw => f2 x hx fun v hm => ?_, ?_, ?_⟩
  · unfold view
    dsimp only
    rw [zn, ze]
  · have := congrArg (List.map Prod.fst) zn
    rw [List.map_map] at this
    exact (show Dict.keys _ = Dict.keys tn'.nodes from this) ▸ ndN
  · have := congrArg (List.map Prod.fst) ze
    rw [List.map_map] at this
    exact (show Dict.keys _ = Dict.keys tn'.edges from this) ▸ ndE
  · show (List.map _ _).Nodup
    rw [zn']; exact l4
  · show (List.filterMap _ _).Nodup
    rw [ze']; exact f4
  · show ∀ x ∈ List.map _ _, _
    rw [zn']
    intro x hx
    obtain ⟨ox, hm, rfl⟩ := List.mem_filterMap.1 hx
    obtain ⟨i, hi, hie⟩ := List.getElem_of_mem hm
    obtain ⟨hl, hP⟩ := List.forall₂_iff_get.1 l3
    have := hP i (hl ▸ hi) hi
    simp only [List.get_eq_getElem] at this
    have hsome : ∃ w oo v, (tn'.nodes.map fun p => some (lw p.1 op, (o.nodes.get? p.1).map HNode.ref, p.2.legs))[i]'(hl ▸ hi) = some (w, oo, v) := by
      rw [List.getElem_map]; exact ⟨_, _, _, rfl⟩
    obtain ⟨w, oo, v, hs⟩ := hsome
    obtain ⟨y, hy, hyv⟩ := this.2 w oo v hs
    rw [hie] at hy
    cases hy
    by_contra hc
    rw [List.getElem?_eq_none (Nat.le_of_not_lt hc)] at hyv
    cases hyv
  · show ∀ x ∈ List.filterMap _ _, _
    rw [ze']
    intro x hx
    obtain ⟨ox, hm, rfl⟩ := List.mem_filterMap.1 hx
    obtain ⟨i, hi, hie⟩ := List.getElem_of_mem hm
    obtain ⟨hl, hP⟩ := List.forall₂_iff_get.1 f3
    have := hP i (hl ▸ hi) hi
    simp only [List.get_eq_getElem] at this
    cases hs : (tn'.edges.map fun p => p.2.fix.map fun f => (fw p.1 op, (o.edges.get? p.1).bind HEdge.fix, f))[i]'(hl ▸ hi) with
    | none =>
      have := this.1 hs
      rw [hie] at this
      cases this
    | some q =>
      obtain ⟨w, oo, v⟩ := q
      obtain ⟨y, hy, hyv⟩ := this.2 w oo v hs
      rw [hie] at hy
      cases hy
      by_contra hc
      rw [List.getElem?_eq_none (Nat.le_of_not_lt hc)] at hyv
      cases hyv
  · obtain ⟨p, hp, he⟩ := List.mem_map.1 hm
    simp only [Option.some.injEq, Prod.mk.injEq] at he
    obtain ⟨a, ha, hx⟩ := Option.map_eq_some_iff.1 he.2.1
    exact hw p.1 a ha hx he.1
  · obtain ⟨p, hp, he⟩ := List.mem_map.1 hm
    obtain ⟨f, hf, he⟩ := Option.map_eq_some_iff.1 he
    simp only [Prod.mk.injEq] at he
    obtain ⟨a, ha, hx⟩ := Option.bind_eq_some_iff.1 he.2.1
    exact hw p.1 a ha hx he.1
  · show ∀ x ∈ List.map _ _, _
    rw [zn']
    exact fun x hx => (l5 x hx).imp_left (mL x)
  · show ∀ x ∈ List.filterMap _ _, _
    rw [ze']
    exact fun x hx => (f5 x hx).imp_left (mF x)

/-- The network that an object is depends on its cells only. -/
theorem view_congr {h h' : Store} {o : HTN τ} (hl : ∀ x ∈ o.legRefs, h'.legs[x]? = h.legs[x]?)
    (hf : ∀ x ∈ o.fixRefs, h'.fixes[x]? = h.fixes[x]?) : o.view h' = o.view h := by
  unfold view
  congr 1
  · refine List.map_congr_left fun p hp => ?_
    rw [hl _ (List.mem_map.2 ⟨p, hp, rfl⟩)]
  · refine List.map_congr_left fun p hp => ?_
    cases hx : p.2.fix with
    | none => rfl
    | some x => simp only [Option.map_some]; rw [hf x (List.mem_filterMap.2 ⟨p, hp, hx⟩)]

theorem Ok.mono {h h' : Store} {o : HTN τ} (hv : o.Ok h) (h1 : h.legs.length ≤ h'.legs.length)
    (h2 : h.fixes.length ≤ h'.fixes.length) : o.Ok h' :=
  ⟨hv.nodes, hv.edges, hv.legs_nodup, hv.fixes_nodup, fun x hx => (hv.legs_lt x hx).trans_le h1,
    fun x hx => (hv.fixes_lt x hx).trans_le h2⟩

/-- A call on `o` does not change another object that refers to no list written to in place. -/
theorem step_other [NetTensor τ] {h : Store} {o o' : HTN τ} (hv : o.Ok h) (hv' : o'.Ok h) (op : Op τ)
    (hl : ∀ n a, o.nodes.get? n = some a → a.ref ∈ o'.legRefs → (o.view h).legWrite n op ≠ .inPlace)
    (hf : ∀ e a x, o.edges.get? e = some a → a.fix = some x → x ∈ o'.fixRefs → (o.view h).fixWrite e op ≠ .inPlace) :
    o'.view (o.step h op).1 = o'.view h ∧ o'.Ok (o.step h op).1 := by
  obtain ⟨_, _, h3, h4, h5, h6, _, _⟩ := step_spec hv op
  refine ⟨view_congr (fun x hx => h5 x (hv'.legs_lt x hx) fun n a ha he => hl n a ha (he ▸ hx))
    (fun x hx => h6 x (hv'.fixes_lt x hx) fun e a ha he => hf e a x ha he hx), hv'.mono h3 h4⟩

end HTN
end Verif
