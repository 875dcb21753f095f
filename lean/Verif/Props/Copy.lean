import Verif.Lemmas.Cells
import Verif.Base.Shp
/-! # C21: a copy and its original -/

namespace Verif

variable {τ : Type}

/-- A network after a sequence of calls on it alone (calls that raise keep the state reached). -/
def editAll [NetTensor τ] (tn : TN τ) (ops : List (Op τ)) : TN τ := ops.foldl (fun t op => (t.step op).1) tn

/-- The calls on one of the two objects. -/
def callsOn (b : Bool) (l : List (Bool × Op τ)) : List (Op τ) := l.filterMap fun p => if p.1 = b then some p.2 else none

/-- Calls other than `rewire` and `fix_edge(..., change_fix=True)`. -/
def Op.Assigns : Op τ → Prop
  | .rewire .. => False
  | .fixEdge _ _ cf => cf = false
  | _ => True

theorem Op.Assigns.leg [NetTensor τ] {op : Op τ} (h : op.Assigns) (tn : TN τ) (n : Nm) : tn.legWrite n op ≠ .inPlace := by
  have hadd : ∀ (t : TN τ) (name : Option Nm) (ident : Nm) (es : Option (List Nm)) (x : τ), t.addWrite name ident es x n ≠ .inPlace := by
    intro t name ident es x
    unfold TN.addWrite
    split <;> (intro h; cases h)
  cases op with
  | rewire => exact h.elim
  | addNode => exact hadd _ _ _ _ _
  | encapsulate ns opn name ident =>
    simp only [TN.legWrite]
    split
    · intro h; cases h
    · exact hadd _ _ _ _ _
  | fix => simp only [TN.legWrite]; split <;> (intro h; cases h)
  | mergeEdges es m d =>
    simp only [TN.legWrite]
    split
    · intro h; cases h
    · split
      · intro h; cases h
      · split <;> (intro h; cases h)
  | _ => intro h; cases h

theorem Op.Assigns.fix {op : Op τ} (h : op.Assigns) (tn : TN τ) (e : Nm) : tn.fixWrite e op ≠ .inPlace := by
  have h1 : ∀ (e : Nm) (vals : List Nat), tn.fixWrite1 e vals false ≠ .inPlace := by
    intro e vals
    unfold TN.fixWrite1
    split
    · intro h; cases h
    · simp
  cases op with
  | fixEdge e' vals cf =>
    obtain rfl : cf = false := h
    simp only [TN.fixWrite]
    split
    · exact h1 _ _
    · intro h; cases h
  | fixIndex i v =>
    simp only [TN.fixWrite]
    split
    · intro h; cases h
    · split
      · exact h1 _ _
      · intro h; cases h
  | mergeEdges es m d =>
    simp only [TN.fixWrite]
    split
    · intro h; cases h
    · split <;> (intro h; cases h)
  | _ => intro h; cases h

/-- Two objects without a common list. -/
structure HTN.Apart (o o' : HTN τ) : Prop where
  legs : ∀ x ∈ o.legRefs, x ∉ o'.legRefs
  fixes : ∀ x ∈ o.fixRefs, x ∉ o'.fixRefs

theorem HTN.Apart.symm {o o' : HTN τ} (h : o.Apart o') : o'.Apart o :=
  ⟨fun x hx hc => h.legs x hc hx, fun x hx hc => h.fixes x hc hx⟩

/-- A call on an object keeps it apart from another one. -/
theorem HTN.Apart.step [NetTensor τ] {h : Store} {o o' : HTN τ} (ha : o.Apart o') (hv : o.Ok h) (hv' : o'.Ok h) (op : Op τ) :
    (o.step h op).2.Apart o' := by
  obtain ⟨_, _, _, _, _, _, h7, h8⟩ := step_spec hv op
  refine ⟨fun x hx hc => ?_, fun x hx hc => ?_⟩
  · rcases h7 x hx with h1 | h1
    · exact ha.legs x h1 hc
    · exact absurd (hv'.legs_lt x hc) (by omega)
  · rcases h8 x hx with h1 | h1
    · exact ha.fixes x h1 hc
    · exact absurd (hv'.fixes_lt x hc) (by omega)

/-- One call on one of two objects: the object called becomes what the call makes of it alone, the other one stays what
it is, if the calls assign lists or the objects have no list in common. -/
theorem World.step_spec [NetTensor τ] {w : World τ} (h1 : w.fst.Ok w.store) (h2 : w.snd.Ok w.store) (c : Bool × Op τ)
    (hc : c.2.Assigns ∨ w.fst.Apart w.snd) :
    (w.step c).fst.view (w.step c).store = editAll (w.fst.view w.store) (callsOn true [c]) ∧
    (w.step c).snd.view (w.step c).store = editAll (w.snd.view w.store) (callsOn false [c]) ∧
    (w.step c).fst.Ok (w.step c).store ∧ (w.step c).snd.Ok (w.step c).store ∧
    (w.fst.Apart w.snd → (w.step c).fst.Apart (w.step c).snd) := by
  obtain ⟨b, op⟩ := c
  cases b with
  | true =>
    obtain ⟨hv, hk, _⟩ := HTN.step_spec h1 op
    obtain ⟨hv', hk'⟩ := HTN.step_other h1 h2 op
      (fun n a ha hx => by
        rcases hc with hc | hc
        · exact hc.leg _ _
        · exact absurd hx (hc.legs _ (List.mem_map.2 ⟨_, Dict.mem_of_get? ha, rfl⟩)))
      (fun e a x ha hax hx => by
        rcases hc with hc | hc
        · exact hc.fix _ _
        · exact absurd hx (hc.fixes _ (List.mem_filterMap.2 ⟨_, Dict.mem_of_get? ha, hax⟩)))
    exact ⟨hv, hv', hk, hk', fun ha => ha.step h1 h2 op⟩
  | false =>
    obtain ⟨hv, hk, _⟩ := HTN.step_spec h2 op
    obtain ⟨hv', hk'⟩ := HTN.step_other h2 h1 op
      (fun n a ha hx => by
        rcases hc with hc | hc
        · exact hc.leg _ _
        · exact absurd (List.mem_map.2 ⟨_, Dict.mem_of_get? ha, rfl⟩) (hc.legs _ hx))
      (fun e a x ha hax hx => by
        rcases hc with hc | hc
        · exact hc.fix _ _
        · exact absurd (List.mem_filterMap.2 ⟨_, Dict.mem_of_get? ha, hax⟩) (hc.fixes _ hx))
    exact ⟨hv', hv, hk', hk, fun ha => (ha.symm.step h2 h1 op).symm⟩

theorem editAll_append [NetTensor τ] (tn : TN τ) (l l' : List (Op τ)) : editAll tn (l ++ l') = editAll (editAll tn l) l' :=
  List.foldl_append

theorem callsOn_cons (b : Bool) (c : Bool × Op τ) (l : List (Bool × Op τ)) :
    callsOn b (c :: l) = callsOn b [c] ++ callsOn b l := by
  rw [show c :: l = [c] ++ l from rfl, callsOn, List.filterMap_append]; rfl

theorem World.run_spec [NetTensor τ] {w : World τ} (h1 : w.fst.Ok w.store) (h2 : w.snd.Ok w.store) (l : List (Bool × Op τ))
    (hc : (∀ c ∈ l, c.2.Assigns) ∨ w.fst.Apart w.snd) :
    (w.run l).fst.view (w.run l).store = editAll (w.fst.view w.store) (callsOn true l) ∧
    (w.run l).snd.view (w.run l).store = editAll (w.snd.view w.store) (callsOn false l) ∧
    (w.run l).fst.Ok (w.run l).store ∧ (w.run l).snd.Ok (w.run l).store := by
  induction l generalizing w with
  | nil => exact ⟨rfl, rfl, h1, h2⟩
  | cons c l ih =>
    obtain ⟨v1, v2, k1, k2, ka⟩ := World.step_spec h1 h2 c (hc.imp_left fun h => h c List.mem_cons_self)
    obtain ⟨i1, i2, i3, i4⟩ := ih k1 k2 (hc.imp (fun h c hc => h c (List.mem_cons_of_mem _ hc)) ka)
    refine ⟨?_, ?_, i3, i4⟩
    · rw [callsOn_cons, editAll_append, ← v1]; exact i1
    · rw [callsOn_cons, editAll_append, ← v2]; exact i2

theorem HTN.Ok.copy {h : Store} {o : HTN τ} (ho : o.Ok h) : o.copy.Ok h :=
  ⟨ho.nodes, ho.edges, ho.legs_nodup, ho.fixes_nodup, ho.legs_lt, ho.fixes_lt⟩

/-- **C21.** After `copy`, any interleaving of calls on the original and on the copy, other than `rewire` and
`fix_edge(..., change_fix=True)`, makes of either object what its own calls alone make of it: neither sees the calls on
the other.  Missing: the two excluded calls, which do change the other object (`c21_rewire_violated`,
`c21_change_fix_violated`), and edits of networks that are nodes of the two networks. -/
theorem c21_independent_partial [NetTensor τ] {h : Store} {o : HTN τ} (ho : o.Ok h) (l : List (Bool × Op τ))
    (hl : ∀ c ∈ l, c.2.Assigns) :
    ((World.mk h o o.copy).run l).fst.view ((World.mk h o o.copy).run l).store = editAll (o.view h) (callsOn true l) ∧
    ((World.mk h o o.copy).run l).snd.view ((World.mk h o o.copy).run l).store =
      editAll { o.view h with idCount := 0 } (callsOn false l) := by
  obtain ⟨h1, h2, _⟩ := World.run_spec (w := ⟨h, o, o.copy⟩) ho ho.copy l (Or.inl hl)
  exact ⟨h1, h2⟩

/-- Every object made by editing calls from the empty network refers to lists of the store, and to different ones. -/
theorem c21_reachable [NetTensor τ] (h : Store) (l : List (Bool × Op τ)) :
    ((World.mk h ({} : HTN τ) {}).run l).fst.Ok ((World.mk h ({} : HTN τ) {}).run l).store := by
  have h0 : ({} : HTN τ).Ok h :=
    ⟨List.nodup_nil, List.nodup_nil, List.nodup_nil, List.nodup_nil, (fun _ h => by cases h), (fun _ h => by cases h)⟩
  exact (World.run_spec (w := ⟨h, {}, {}⟩) h0 h0 l (Or.inr ⟨(fun _ h => by cases h), (fun _ h => by cases h)⟩)).2.2.1

/-! ## `__deepcopy__` -/

theorem Store.put_spec {h : Store} {tn : TN τ} (hn : tn.nodes.keys.Nodup) (he : tn.edges.keys.Nodup) :
    (h.put tn).2.view (h.put tn).1 = tn ∧ (h.put tn).2.Ok (h.put tn).1 ∧
    (∀ o : HTN τ, o.Ok h → o.view (h.put tn).1 = o.view h ∧ o.Ok (h.put tn).1 ∧ o.Apart (h.put tn).2) := by
  have oL : olds (tn.nodes.map fun p => some (Write.fresh, (none : Option Nat), p.2.legs)) = [] := by
    rw [olds, List.filterMap_map, List.filterMap_eq_nil_iff]; intro a _; rfl
  have oF : olds (tn.edges.map fun p => p.2.fix.map fun f => (Write.fresh, (none : Option Nat), f)) = [] := by
    rw [olds, List.filterMap_map, List.filterMap_eq_nil_iff]
    intro a _
    simp only [Function.comp]
    cases a.2.fix <;> rfl
  obtain ⟨l1, l2, l3, l4, l5⟩ := cellsFor_spec (tn.nodes.map fun p => some (Write.fresh, (none : Option Nat), p.2.legs)) h.legs
    (by rw [oL]; exact List.nodup_nil) (by rw [oL]; intro x hx; cases hx)
    (fun o v hm => by obtain ⟨p, _, hp⟩ := List.mem_map.1 hm; cases hp)
  obtain ⟨f1, f2, f3, f4, f5⟩ := cellsFor_spec (tn.edges.map fun p => p.2.fix.map fun f => (Write.fresh, (none : Option Nat), f)) h.fixes
    (by rw [oF]; exact List.nodup_nil) (by rw [oF]; intro x hx; cases hx)
    (fun o v hm => by
      obtain ⟨p, _, hp⟩ := List.mem_map.1 hm
      obtain ⟨f, _, hp⟩ := Option.map_eq_some_iff.1 hp
      cases hp)
  obtain ⟨zn, zn'⟩ := zip_nodes (fun _ => (.fresh, none)) tn.nodes _ l3
  obtain ⟨ze, ze'⟩ := zip_edges (fun _ => (.fresh, none)) tn.edges _ f3
  have rl : (h.put tn).2.legRefs = _ := zn'
  have rf : (h.put tn).2.fixRefs = _ := ze'
  have ltL : ∀ x ∈ (h.put tn).2.legRefs, x < (h.put tn).1.legs.length := by
    rw [rl]
    intro x hx
    obtain ⟨ox, hm, rfl⟩ := List.mem_filterMap.1 hx
    obtain ⟨i, hi, hie⟩ := List.getElem_of_mem hm
    obtain ⟨hl, hP⟩ := List.forall₂_iff_get.1 l3
    have hi' : i < (tn.nodes.map fun p => some (Write.fresh, (none : Option Nat), p.2.legs)).length := hl ▸ hi
    have := hP i hi' hi
    simp only [List.get_eq_getElem] at this
    obtain ⟨y, hy, hyv⟩ := this.2 _ _ _ (by rw [List.getElem_map])
    rw [hie] at hy
    cases hy
    exact (List.getElem?_eq_some_iff.1 hyv).1
  have ltF : ∀ x ∈ (h.put tn).2.fixRefs, x < (h.put tn).1.fixes.length := by
    rw [rf]
    intro x hx
    obtain ⟨ox, hm, rfl⟩ := List.mem_filterMap.1 hx
    obtain ⟨i, hi, hie⟩ := List.getElem_of_mem hm
    obtain ⟨hl, hP⟩ := List.forall₂_iff_get.1 f3
    have hi' : i < (tn.edges.map fun p => p.2.fix.map fun f => (Write.fresh, (none : Option Nat), f)).length := hl ▸ hi
    have := hP i hi' hi
    simp only [List.get_eq_getElem] at this
    cases hs : (tn.edges.map fun p => p.2.fix.map fun f => (Write.fresh, (none : Option Nat), f))[i]'hi' with
    | none =>
      have := this.1 hs
      rw [hie] at this
      cases this
    | some q =>
      obtain ⟨y, hy, hyv⟩ := this.2 _ _ _ hs
      rw [hie] at hy
      cases hy
      exact (List.getElem?_eq_some_iff.1 hyv).1
  refine ⟨?_, ⟨?_, ?_, ?_, ?_, ltL, ltF⟩, fun o ho => ⟨?_, ?_, ?_, ?_⟩⟩
  · unfold Store.put HTN.view
    dsimp only
    rw [zn, ze]
  · have := congrArg (List.map Prod.fst) zn
    rw [List.map_map] at this
    exact (show Dict.keys _ = Dict.keys tn.nodes from this) ▸ hn
  · have := congrArg (List.map Prod.fst) ze
    rw [List.map_map] at this
    exact (show Dict.keys _ = Dict.keys tn.edges from this) ▸ he
  · rw [rl]; exact l4
  · rw [rf]; exact f4
  · refine HTN.view_congr (fun x hx => l2 x (ho.legs_lt x hx) fun v hm => ?_) (fun x hx => f2 x (ho.fixes_lt x hx) fun v hm => ?_)
    · obtain ⟨p, _, hp⟩ := List.mem_map.1 hm; cases hp
    · obtain ⟨p, _, hp⟩ := List.mem_map.1 hm
      obtain ⟨f, _, hp⟩ := Option.map_eq_some_iff.1 hp
      cases hp
  · exact ho.mono l1 f1
  · intro x hx hc
    rw [rl] at hc
    rcases l5 x hc with h1 | h1
    · rw [oL] at h1; cases h1
    · exact absurd (ho.legs_lt x hx) (by omega)
  · intro x hx hc
    rw [rf] at hc
    rcases f5 x hc with h1 | h1
    · rw [oF] at h1; cases h1
    · exact absurd (ho.fixes_lt x hx) (by omega)

theorem Dict.set_self {K V : Type} [DecidableEq K] {d : Dict K V} {k : K} {v : V} (h : d.get? k = some v) : d.set k v = d := by
  induction d with
  | nil => cases h
  | cons p d ih =>
    obtain ⟨k', v'⟩ := p
    unfold Dict.set
    rw [Dict.get?_cons] at h
    split at h
    · next he => subst he; cases h; rw [if_pos rfl]
    · next he => rw [if_neg he, ih h]

theorem TN.updateDimension_noop {tn : TN τ} {dic : Dict Nm (Option Nat)}
    (h : ∀ p ∈ dic, ∃ r, tn.edges.get? p.1 = some r ∧ ∀ d, p.2 = some d → r.dim = some d) :
    tn.updateDimension dic = (tn, .ok ()) := by
  unfold updateDimension
  induction dic with
  | nil => rfl
  | cons p dic ih =>
    obtain ⟨r, hr, hd⟩ := h p List.mem_cons_self
    have h1 : tn.updateDim1 p = (tn, .ok ()) := by
      unfold updateDim1
      rw [hr]
      simp only
      cases hrd : r.dim with
      | none =>
        have hp : p.2 = none := by
          cases hp : p.2 with
          | none => rfl
          | some d => rw [hd d hp] at hrd; cases hrd
        have : ({ r with dim := p.2 } : EdgeRec) = r := by rw [hp, ← hrd]
        simp only [hp] at this ⊢
        rw [this, Dict.set_self hr]
      | some d =>
        simp only
        cases hp : p.2 with
        | none => rfl
        | some d' =>
          have := hd d' hp
          rw [hrd] at this
          simp only [Option.some.injEq] at this
          simp [this]
    unfold forLoop
    rw [h1]
    exact ih fun q hq => h q (List.mem_cons_of_mem _ hq)

theorem mem_foldl_put {l d : Dict Nm (Option Nat)} {p : Nm × Option Nat}
    (h : p ∈ l.foldl (fun d p => Dict.set d p.1 p.2) d) : p ∈ d ∨ p ∈ l := by
  have mset : ∀ {d : Dict Nm (Option Nat)} {k : Nm} {v : Option Nat} {p}, p ∈ d.set k v → p = (k, v) ∨ p ∈ d := by
    intro d k v p h
    induction d with
    | nil => simpa [Dict.set] using h
    | cons q d ih =>
      unfold Dict.set at h
      split at h
      · rcases List.mem_cons.1 h with h | h
        · exact Or.inl h
        · exact Or.inr (List.mem_cons_of_mem _ h)
      · rcases List.mem_cons.1 h with h | h
        · exact Or.inr (h ▸ List.mem_cons_self)
        · exact (ih h).imp_right (List.mem_cons_of_mem _)
  induction l generalizing d with
  | nil => exact Or.inl h
  | cons q l ih =>
    rcases ih h with h | h
    · rcases mset h with h | h
      · exact Or.inr (by rw [h]; exact List.mem_cons_self)
      · exact Or.inl h
    · exact Or.inr (List.mem_cons_of_mem _ h)

/-- Every node has a tensor, and the dimensions of its legs are those of the tensor where both are known. -/
def TN.Settled [HasShape τ] (tn : TN τ) : Prop :=
  ∀ n r, tn.nodes.get? n = some r → ∃ t, r.ten = some t ∧ (∀ e ∈ r.legs, e ∈ tn.edges.keys) ∧
    ∀ sh, HasShape.shape t = some sh → r.legs.length ≤ sh.length ∧
      ∀ (i : Nat) e d q, r.legs[i]? = some e → sh[i]? = some (some d) → tn.edges.get? e = some q → q.dim = some d

theorem TN.Settled.updateNode [HasShape τ] {tn : TN τ} (hs : tn.Settled) {n : Nm} {r : NodeRec τ} {t : τ}
    (hr : tn.nodes.get? n = some r) (ht : r.ten = some t) : tn.updateNode n t = (tn, .ok ()) := by
  obtain ⟨t', ht', hk, hd⟩ := hs n r hr
  obtain rfl : t = t' := by rw [ht] at ht'; exact Option.some.inj ht'
  unfold TN.updateNode
  have hset : ({ tn with nodes := tn.nodes.set n { r with ten := some t } } : TN τ) = tn := by
    have : ({ r with ten := some t } : NodeRec τ) = r := by rw [← ht]
    rw [this, Dict.set_self hr]
  rw [hr]
  simp only [hset]
  cases hsh : HasShape.shape t with
  | none =>
    simp only
    refine TN.updateDimension_noop fun p hp => ?_
    have hp : p ∈ (r.legs.map fun e => (e, (none : Option Nat))).foldl (fun d p => Dict.set d p.1 p.2) [] := by
      rw [List.foldl_map]; exact hp
    rcases mem_foldl_put hp with h | h
    · cases h
    · obtain ⟨e, he, rfl⟩ := List.mem_map.1 h
      obtain ⟨q, hq⟩ := Dict.exists_get? (hk e he)
      exact ⟨q, hq, fun d hd => by cases hd⟩
  | some sh =>
    obtain ⟨hlen, hd⟩ := hd sh hsh
    simp only [TN.legDims, if_pos hlen]
    refine TN.updateDimension_noop fun p hp => ?_
    rcases mem_foldl_put hp with h | h
    · cases h
    · obtain ⟨i, hi, hie⟩ := List.getElem_of_mem h
      rw [List.getElem_zip] at hie
      simp only [List.length_zip] at hi
      have h1 : r.legs[i]? = some p.1 := by rw [← hie]; simp
      have h2 : sh[i]? = some p.2 := by rw [← hie]; simp
      obtain ⟨q, hq⟩ := Dict.exists_get? (hk p.1 (List.mem_of_getElem? h1))
      exact ⟨q, hq, fun d hpd => hd i p.1 d q h1 (by rw [h2, hpd]) hq⟩

/-- **C21, `__deepcopy__`.**  On a network in which every node has a tensor that fits the dimensions, `deepcopy` succeeds,
gives the same network, and leaves the original as it is; afterwards every interleaving of calls of any kind on the two
objects, `rewire` and `change_fix` included, makes of either object what its own calls alone make of it. -/
theorem c21_deepcopy [NetTensor τ] {h : Store} {o : HTN τ} (ho : o.Ok h) (hs : (o.view h).Settled) :
    ∃ h' o', o.deepcopy h = (h', .ok o') ∧ o'.view h' = { o.view h with idCount := 0 } ∧ o.view h' = o.view h ∧
      ∀ l : List (Bool × Op τ),
        ((World.mk h' o o').run l).fst.view ((World.mk h' o o').run l).store = editAll (o.view h) (callsOn true l) ∧
        ((World.mk h' o o').run l).snd.view ((World.mk h' o o').run l).store =
          editAll { o.view h with idCount := 0 } (callsOn false l) := by
  have hloop : ∀ (ns : List (Nm × NodeRec τ)), (∀ p ∈ ns, p ∈ (o.view h).nodes) →
      forLoop deepStep ns ({ o.view h with idCount := 0 } : TN τ) = ({ o.view h with idCount := 0 }, .ok ()) := by
    intro ns
    induction ns with
    | nil => intro _; rfl
    | cons p ns ih =>
      intro hp
      have hg : (o.view h).nodes.get? p.1 = some p.2 :=
        Dict.get?_of_mem (by rw [(HTN.view_keys h o).1]; exact ho.nodes) (hp p List.mem_cons_self)
      obtain ⟨t, ht, _⟩ := hs p.1 p.2 hg
      have h1 : deepStep ({ o.view h with idCount := 0 } : TN τ) p = ({ o.view h with idCount := 0 }, .ok ()) := by
        unfold deepStep
        rw [ht]
        exact TN.Settled.updateNode (tn := { o.view h with idCount := 0 }) hs hg ht
      unfold forLoop
      rw [h1]
      exact ih fun q hq => hp q (List.mem_cons_of_mem _ hq)
  obtain ⟨p1, p2, p3⟩ := Store.put_spec (h := h) (tn := { o.view h with idCount := 0 })
    (by rw [show _ = _ from (HTN.view_keys h o).1]; exact ho.nodes) (by rw [show _ = _ from (HTN.view_keys h o).2]; exact ho.edges)
  obtain ⟨q1, q2, q3⟩ := p3 o ho
  refine ⟨_, _, by unfold HTN.deepcopy; rw [hloop _ fun _ h => h], p1, q1, fun l => ?_⟩
  obtain ⟨r1, r2, _⟩ := World.run_spec (w := ⟨(h.put { o.view h with idCount := 0 }).1, o, (h.put { o.view h with idCount := 0 }).2⟩)
    q2 p2 l (Or.inr q3)
  exact ⟨by rw [r1, q1], by rw [r2, p1]⟩

/-! ## Example, and the two calls that reach through the copy -/

/-- A network with two nodes, one of them on a fixed edge. -/
def copyHistory : List (Bool × Op Shp) :=
  [(true, .addNode (some (.str "A")) (.int 0) (some [.str "i", .str "j"]) (shp [2, 3]) false),
   (true, .addNode (some (.str "B")) (.int 1) (some [.str "j", .str "k"]) (shp [3, 2]) false),
   (true, .openEdge (.str "i") none),
   (true, .fixEdge (.str "k") [1] false)]

/-- The store and the object after `copyHistory`. -/
def copyWorld : World Shp := (World.mk {} {} {}).run copyHistory

theorem copyWorld_ok : copyWorld.fst.Ok copyWorld.store := c21_reachable {} copyHistory

theorem copyWorld_view : copyWorld.fst.view copyWorld.store =
    { nodes := [(.str "A", ⟨[.str "i", .str "j"], some (shp [2, 3]), false⟩), (.str "B", ⟨[.str "j", .str "k"], some (shp [3, 2]), false⟩)]
      edges := [(.str "i", ⟨some 2, none⟩), (.str "j", ⟨some 3, none⟩), (.str "k", ⟨some 2, some [1]⟩)]
      adj := [(.str "A", .str "i"), (.str "A", .str "j"), (.str "B", .str "j"), (.str "B", .str "k")]
      openE := [.str "i"]
      idCount := 0 } := by
  decide

theorem copyWorld_settled : (copyWorld.fst.view copyWorld.store).Settled := by
  rw [copyWorld_view]
  intro n r hr
  have hm := Dict.mem_of_get? hr
  simp only [List.mem_cons, List.not_mem_nil, or_false, Prod.mk.injEq] at hm
  rcases hm with ⟨rfl, rfl⟩ | ⟨rfl, rfl⟩
  · refine ⟨_, rfl, by decide, fun sh hsh => ?_⟩
    cases hsh
    refine ⟨by decide, fun i e d q h1 h2 h3 => ?_⟩
    match i with
    | 0 => cases h1; cases h2; cases h3; rfl
    | 1 => cases h1; cases h2; cases h3; rfl
    | i + 2 => cases h1
  · refine ⟨_, rfl, by decide, fun sh hsh => ?_⟩
    cases hsh
    refine ⟨by decide, fun i e d q h1 h2 h3 => ?_⟩
    match i with
    | 0 => cases h1; cases h2; cases h3; rfl
    | 1 => cases h1; cases h2; cases h3; rfl
    | i + 2 => cases h1

/-- The hypotheses of the theorems hold of this network; calls on the two objects that share its lists. -/
example : copyWorld.fst.Ok copyWorld.store ∧ (copyWorld.fst.view copyWorld.store).Settled ∧
    ∀ c ∈ ([(false, .mergeEdges [.str "i", .str "k"] (some (.str "i")) none), (true, .fix),
      (false, .removeNode (.str "B")), (true, .fixEdge (.str "j") [0, 2] false)] : List (Bool × Op Shp)), c.2.Assigns := by
  refine ⟨copyWorld_ok, copyWorld_settled, fun c hc => ?_⟩
  simp only [List.mem_cons, List.not_mem_nil, or_false] at hc
  rcases hc with rfl | rfl | rfl | rfl
  · exact trivial
  · exact trivial
  · exact trivial
  · rfl

/-- `rewire` on the copy changes the original: its node then has a leg to an edge that does not exist in it. -/
theorem c21_rewire_violated :
    ∃ (op : Op Shp) (w : World Shp), w = (World.mk copyWorld.store copyWorld.fst copyWorld.fst.copy).step (false, op) ∧
      ((copyWorld.fst.copy.view copyWorld.store).step op).2 = .ok () ∧
      w.fst.view w.store ≠ copyWorld.fst.view copyWorld.store ∧ ¬ (w.fst.view w.store).Consistent := by
  refine ⟨.rewire (.str "A") 1 (some (.str "z")), _, rfl, by decide, by decide, fun hc => ?_⟩
  have := hc.legs_exist (.str "A") ⟨[.str "i", .str "z"], some (shp [2, 3]), false⟩ (by decide) (.str "z") (by decide)
  revert this
  decide

/-- `fix_edge(..., change_fix=True)` on the copy changes the value to which the edge of the original is fixed. -/
theorem c21_change_fix_violated :
    ∃ (op : Op Shp) (w : World Shp), w = (World.mk copyWorld.store copyWorld.fst copyWorld.fst.copy).step (false, op) ∧
      ((copyWorld.fst.copy.view copyWorld.store).step op).2 = .ok () ∧
      (copyWorld.fst.view copyWorld.store).edges.get? (.str "k") = some ⟨some 2, some [1]⟩ ∧
      (w.fst.view w.store).edges.get? (.str "k") = some ⟨some 2, some [0]⟩ := by
  exact ⟨.fixEdge (.str "k") [0] true, _, rfl, by decide, by decide, by decide⟩

end Verif
