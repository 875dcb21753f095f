import Verif.Lemmas.Value
import Verif.Lemmas.Consistent
import Verif.Props.History
/-! # C18: encapsulating and partially contracting a sub-network -/

namespace Verif

variable {R : Type} [CommSemiring R] {τ : Type}

namespace TN

theorem mem_closedOfNodes {tn : TN τ} {ns : List Nm} {e : Nm} :
    e ∈ tn.closedOfNodes ns ↔ e ∈ tn.edges.keys ∧ (∃ n ∈ ns, (n, e) ∈ tn.adj) ∧
      (∀ n, (n, e) ∈ tn.adj → n ∈ ns) ∧ e ∉ tn.openE := by
  simp only [closedOfNodes, List.mem_filter, Bool.and_eq_true, edgeOfNodes_iff, List.all_eq_true,
    mem_adjOfEdge, Bool.not_eq_true', List.contains_eq_mem, decide_eq_false_iff_not]
  constructor
  · rintro ⟨h1, ⟨h2, h3⟩, h4⟩; exact ⟨h1, h2, by simpa using h3, h4⟩
  · rintro ⟨h1, h2, h3, h4⟩; exact ⟨h1, ⟨h2, by simpa using h3⟩, h4⟩

theorem mem_boundaryOfNodes {tn : TN τ} {ns : List Nm} {e : Nm} :
    e ∈ tn.boundaryOfNodes ns ↔ e ∈ tn.edges.keys ∧ (∃ n ∈ ns, (n, e) ∈ tn.adj) ∧
      e ∉ tn.closedOfNodes ns ∧ (tn.edges.get? e).bind EdgeRec.fix = none := by
  simp only [boundaryOfNodes, List.mem_filter, Bool.and_eq_true, edgeOfNodes_iff,
    Bool.not_eq_true', List.contains_eq_mem, decide_eq_false_iff_not, Option.isNone_iff_eq_none, and_assoc]

end TN

/-- No edge on the boundary of the sub-network (an edge of the nodes that is also used outside or open) is
fixed. -/
def BoundaryFree (tn : TN τ) (ns : List Nm) : Prop :=
  ∀ e r, tn.edges.get? e = some r → (∃ n ∈ ns, (n, e) ∈ tn.adj) →
    ((∃ n, n ∉ ns ∧ (n, e) ∈ tn.adj) ∨ e ∈ tn.openE) → r.fix = none

/-- The values an edge ranges over, from its fix and dimension. -/
theorem dom_eq_range {tn : TN τ} {e : Nm} {r : EdgeRec} {d : Nat} (hr : tn.edges.get? e = some r)
    (hf : r.fix = none) (hd : r.dim = some d) : tn.dom e = Finset.range d := by
  unfold TN.dom EdgeRec.dom
  rw [hr]
  simp only [hf, hd, Option.getD_some]

theorem dom_grow {E E' : Dict Nm EdgeRec} {tn tn' : TN τ} (hE : tn.edges = E) (hE' : tn'.edges = E')
    (g : EdgesGrow E E') {e : Nm} {r : EdgeRec} {d : Nat} (hr : E.get? e = some r) (hd : r.dim = some d) :
    tn'.dom e = tn.dom e := by
  obtain ⟨r', hr', hf, hd'⟩ := g.ent e r hr
  unfold TN.dom EdgeRec.dom
  rw [hE, hE', hr, hr']
  simp only [hf, hd' d hd, hd]

/-- The sub-network copied out by `subtn` ranges over the same values as the original on all its edges. -/
theorem subtn_dom [HasShape τ] {tn stn : TN τ} {ns opn : List Nm} (hc : tn.Consistent) (hr : tn.Ready)
    (hb : BoundaryFree tn ns) (h : tn.subtn ns opn = .ok stn) {e : Nm} (he : ∃ n ∈ ns, (n, e) ∈ tn.adj) :
    stn.dom e = tn.dom e := by
  obtain ⟨hns, hopn, f, E1, hf, _, _, _, hE1, _, hEs, hdim⟩ := TN.subtn_ok h
  obtain ⟨n, hn, hadj⟩ := he
  obtain ⟨r, hrn, hel⟩ := (hc.adj_iff n e).1 hadj
  have hek := hc.legs_exist n r hrn e hel
  obtain ⟨er, her⟩ := Dict.exists_get? hek
  obtain ⟨r0, hr0, _, hfn⟩ := hf n hn
  rw [hrn] at hr0
  cases hr0
  have hlegs : (f n).legs = r.legs := by rw [hfn]
  have he1 : e ∈ E1.keys := (hE1.keys e).2 (Or.inr (by
    rw [List.mem_append]; right
    exact List.mem_flatMap.2 ⟨n, hn, by rw [hlegs]; exact hel⟩))
  obtain ⟨r1, hr1⟩ := Dict.exists_get? he1
  have hs := hEs e
  rw [hr1] at hs
  simp only [Option.map_some] at hs
  by_cases hcl : e ∈ tn.closedOfNodes ns
  · rw [if_pos hcl, her, Option.getD_some] at hs
    unfold TN.dom
    rw [hs, her]
  · rw [if_neg hcl] at hs
    obtain ⟨t, sh, ht, hsh, hlen, hleg⟩ := hr.nodes n r hrn
    obtain ⟨i, hi, hie⟩ := List.getElem_of_mem hel
    have hie' : r.legs[i]? = some e := List.getElem?_eq_some_iff.2 ⟨hi, hie⟩
    obtain ⟨er', her', hdim'⟩ := hleg i e hie'
    rw [her] at her'
    cases her'
    have hshi : sh[i]? = some sh[i] := List.getElem?_eq_getElem _
    rw [hshi] at hdim'
    have hten : (f n).ten = some t := by rw [hfn]; exact ht
    obtain ⟨_, h2⟩ := hdim n hn t _ hten hsh
    obtain ⟨r2, hr2, hd2⟩ := h2 i e sh[i] (by rw [hlegs]; exact hie') (by rw [List.getElem?_map, hshi]; rfl)
    rw [hr1] at hr2
    cases hr2
    have hfix : er.fix = none := by
      refine hb e er her ⟨n, hn, hadj⟩ ?_
      by_contra hcon
      rw [not_or] at hcon
      refine hcl (TN.mem_closedOfNodes.2 ⟨hek, ⟨n, hn, hadj⟩, fun m hm => ?_, hcon.2⟩)
      by_contra hmn
      exact hcon.1 ⟨m, hmn, hm⟩
    rw [dom_eq_range hs (hE1.nofix e r1 (by simp [Dict.keys]) hr1) hd2, dom_eq_range her hfix hdim']

/-- A successful `encapsulate`: the value is unchanged, and what the new network looks like. -/
theorem encapsulate_value [NetTensor τ] {val : τ → List Nat → R}
    (hval : ∀ t : TN τ, val (NetTensor.ofNet t) = t.value val)
    {tn tn' : TN τ} {ns opn : List Nm} {name : Option Nm} {ident n : Nm}
    (hc : tn.Consistent) (hr : tn.Ready) (hb : BoundaryFree tn ns)
    (hid : name = none → ident ∉ tn.nodes.keys)
    (h : tn.encapsulate ns opn name ident = (tn', .ok n)) :
    (∀ idx, tn'.value val idx = tn.value val idx) ∧
    ∃ stn others, tn.subtn ns opn = .ok stn ∧ stn.openE = opn ∧ n ∉ Dict.keys others ∧
      tn'.nodes = others ++ [(n, { legs := opn, ten := some (NetTensor.ofNet stn), frozen := false })] ∧
      (∀ e ∈ usedEdges (tn'.factors val) tn'.openE, ∃ er d, tn'.edges.get? e = some er ∧ er.dim = some d) ∧
      ∀ e ∈ opn, tn'.dom e = stn.dom e := by
  unfold TN.encapsulate at h
  split at h
  · simp at h
  next stn hs =>
  have hsd : ∀ e, (∃ n ∈ ns, (n, e) ∈ tn.adj) → stn.dom e = tn.dom e := fun e he => subtn_dom hc hr hb hs he
  obtain ⟨hns, hopn, f, E1, hf, hnodes, hopE, hsadj, hE1, _, hEs, hdim⟩ := TN.subtn_ok hs
  obtain ⟨hn, hnt, legs, frozen, E', hl, htn', hE', _⟩ := TN.addNode_ok h
  simp only [TN.newLegs, Option.some.injEq, Prod.mk.injEq] at hl
  obtain ⟨rfl, rfl⟩ := hl
  rw [hopE] at hE' htn'
  let closed := tn.closedOfNodes ns
  have hnodes' : tn'.nodes = Dict.set (tn.nodes.filterKeys fun m => !(ns.contains m)) n
      { legs := opn, ten := some (NetTensor.ofNet stn), frozen := false } := by rw [htn']; rfl
  have hedges' : tn'.edges = E' := by rw [htn']
  have hopen' : tn'.openE = tn.openE := by
    rw [htn']
    show tn.openE ++ _ = _
    simp
  clear htn'
  -- the nodes of the network before
  have hfeq : ∀ m ∈ ns, ∃ r, tn.nodes.get? m = some r ∧ (f m).legs = r.legs ∧ (f m).ten = r.ten := by
    intro m hm
    obtain ⟨r, hr1, _, hr2⟩ := hf m hm
    exact ⟨r, hr1, by rw [hr2], by rw [hr2]⟩
  let g : Nm → NodeRec τ := fun m => (tn.nodes.get? m).getD (f m)
  have hg : ∀ m ∈ ns, tn.nodes.get? m = some (g m) := by
    intro m hm
    obtain ⟨r, hr1, _⟩ := hfeq m hm
    simp [g, hr1]
  have hgf : ∀ m ∈ ns, (g m).factor val = (f m).factor val := by
    intro m hm
    obtain ⟨r, hr1, hr2, hr3⟩ := hfeq m hm
    have : g m = r := by simp [g, hr1]
    rw [this]
    unfold NodeRec.factor
    rw [hr2, hr3]
  have hsplit := TN.split_nodes hc.nodes_nodup hns hg
  have hnnew : n ∉ Dict.keys (tn.nodes.filterKeys fun m => !(ns.contains m)) := by
    cases name with
    | none =>
      rw [hn]
      rw [Dict.keys_filterKeys]
      exact fun hcon => hid rfl (List.mem_filter.1 hcon).1
    | some m =>
      rw [hn]
      exact Dict.has_eq_false.1 hnt
  let S : List (Factor Nm R) := ns.map fun m => (f m).factor val
  let rest : List (Factor Nm R) := (tn.nodes.filterKeys fun m => !(ns.contains m)).map fun p => p.2.factor val
  have hS : stn.factors val = S := by
    unfold TN.factors
    rw [hnodes, List.map_map]; rfl
  have hbefore : (tn.factors val).Perm (S ++ rest) := by
    have := hsplit.map fun p => p.2.factor val
    rw [List.map_append, List.map_map] at this
    refine this.trans (List.Perm.append_right _ ?_)
    rw [show List.map ((fun p : Nm × NodeRec τ => p.2.factor val) ∘ fun n => (n, g n)) ns = S from
      List.map_congr_left fun m hm => hgf m hm]
  have hrest : ∀ e, (∃ x ∈ rest, e ∈ x.legs) ↔ ∃ m, m ∉ ns ∧ (m, e) ∈ tn.adj := by
    intro e
    constructor
    · rintro ⟨x, hx, hex⟩
      obtain ⟨⟨m, r⟩, hp, rfl⟩ := List.mem_map.1 hx
      simp only [Dict.filterKeys, List.mem_filter] at hp
      have := Dict.get?_of_mem hc.nodes_nodup hp.1
      exact ⟨m, by simpa using hp.2, (hc.adj_iff m e).2 ⟨r, this, hex⟩⟩
    · rintro ⟨m, hm, ha⟩
      obtain ⟨r, hr1, hr2⟩ := (hc.adj_iff m e).1 ha
      refine ⟨r.factor val, List.mem_map.2 ⟨(m, r), ?_, rfl⟩, hr2⟩
      simp only [Dict.filterKeys, List.mem_filter]
      exact ⟨Dict.mem_of_get? hr1, by simpa using hm⟩
  have hSe : ∀ e, (∃ x ∈ S, e ∈ x.legs) ↔ ∃ m ∈ ns, (m, e) ∈ tn.adj := by
    intro e
    constructor
    · rintro ⟨x, hx, hex⟩
      obtain ⟨m, hm, rfl⟩ := List.mem_map.1 hx
      obtain ⟨r, hr1, hr2, _⟩ := hfeq m hm
      exact ⟨m, hm, (hc.adj_iff m e).2 ⟨r, hr1, by rw [← hr2]; exact hex⟩⟩
    · rintro ⟨m, hm, ha⟩
      obtain ⟨r, hr1, hr2⟩ := (hc.adj_iff m e).1 ha
      obtain ⟨r', hr1', hr2', _⟩ := hfeq m hm
      rw [hr1] at hr1'
      cases hr1'
      exact ⟨(f m).factor val, List.mem_map.2 ⟨m, hm, rfl⟩, by rw [TN.factor_legs, hr2']; exact hr2⟩
  -- boundary edges
  have hopn' : ∀ e, e ∈ opn ↔ (∃ m ∈ ns, (m, e) ∈ tn.adj) ∧ ((∃ m, m ∉ ns ∧ (m, e) ∈ tn.adj) ∨ e ∈ tn.openE) := by
    intro e
    rw [hopn, TN.mem_boundaryOfNodes]
    constructor
    · rintro ⟨h1, h2, h3, h4⟩
      refine ⟨h2, ?_⟩
      by_contra hcon
      rw [not_or] at hcon
      refine h3 (TN.mem_closedOfNodes.2 ⟨h1, h2, fun m hm => ?_, hcon.2⟩)
      by_contra hmn
      exact hcon.1 ⟨m, hmn, hm⟩
    · rintro ⟨⟨m, hm, ha⟩, h2⟩
      obtain ⟨r, hr1, hr2⟩ := (hc.adj_iff m e).1 ha
      have hek := hc.legs_exist m r hr1 e hr2
      refine ⟨hek, ⟨m, hm, ha⟩, fun hcon => ?_, ?_⟩
      · obtain ⟨_, _, h5, h6⟩ := TN.mem_closedOfNodes.1 hcon
        rcases h2 with ⟨m', hm', ha'⟩ | h2
        · exact hm' (h5 m' ha')
        · exact h6 h2
      · obtain ⟨er, her⟩ := Dict.exists_get? hek
        rw [her]
        exact hb e er her ⟨m, hm, ha⟩ h2
  -- domains in the new network
  have hdom : ∀ e, (e ∈ opn ∨ (∃ x ∈ rest, e ∈ x.legs) ∨ e ∈ tn.openE) →
      tn'.dom e = tn.dom e ∧ ∃ er d, tn'.edges.get? e = some er ∧ er.dim = some d := by
    intro e he
    have hnc : e ∉ closed := by
      intro hcon
      obtain ⟨_, _, h5, h6⟩ := TN.mem_closedOfNodes.1 hcon
      rcases he with he | he | he
      · rcases ((hopn' e).1 he).2 with ⟨m', hm', ha'⟩ | h2
        · exact hm' (h5 m' ha')
        · exact h6 h2
      · obtain ⟨m', hm', ha'⟩ := (hrest e).1 he
        exact hm' (h5 m' ha')
      · exact h6 he
    have hdef : ∃ er d, tn.edges.get? e = some er ∧ er.dim = some d := by
      have key : ∀ m, (m, e) ∈ tn.adj → ∃ er d, tn.edges.get? e = some er ∧ er.dim = some d := by
        intro m ha
        obtain ⟨r, hr1, hr2⟩ := (hc.adj_iff m e).1 ha
        obtain ⟨t, sh, _, _, hlen, hleg⟩ := hr.nodes m r hr1
        obtain ⟨i, hi, hie⟩ := List.getElem_of_mem hr2
        obtain ⟨er, her, hd⟩ := hleg i e (List.getElem?_eq_some_iff.2 ⟨hi, hie⟩)
        exact ⟨er, sh[i], her, by rw [hd]; exact List.getElem?_eq_getElem _⟩
      rcases he with he | he | he
      · obtain ⟨m, _, ha⟩ := ((hopn' e).1 he).1; exact key m ha
      · obtain ⟨m, _, ha⟩ := (hrest e).1 he; exact key m ha
      · exact hr.opens e he
    obtain ⟨er, d, her, hd⟩ := hdef
    have hsame : (tn.dropSub ns closed).edges.get? e = tn.edges.get? e := by
      show Dict.get? (tn.edges.filterKeys fun e => !(closed.contains e)) e = _
      rw [Dict.get?_filterKeys, if_pos (by simpa using hnc)]
    refine ⟨(dom_grow (tn := tn.dropSub ns closed) rfl hedges' hE'.grow (r := er) (hsame.trans her) hd).trans ?_, ?_⟩
    · unfold TN.dom
      rw [hsame]
    · obtain ⟨er', her', _, hd'⟩ := hE'.grow.ent e er (hsame.trans her)
      exact ⟨er', d, by rw [hedges', her'], hd' d hd⟩
  have hfac : tn'.factors val =
      rest ++ [⟨opn, einsum stn.dom S opn⟩] := by
    unfold TN.factors
    rw [hnodes', Dict.set_eq_append hnnew, List.map_append]
    congr 1
    simp only [List.map_cons, List.map_nil, NodeRec.factor]
    rw [hval]
    unfold TN.value
    rw [hS, hopE]
  have hused : ∀ e ∈ usedEdges (tn'.factors val) tn'.openE, e ∈ opn ∨ (∃ x ∈ rest, e ∈ x.legs) ∨ e ∈ tn.openE := by
    intro e he
    rw [hfac, hopen'] at he
    rcases mem_usedEdges.1 he with ⟨x, hx, hex⟩ | he
    · rcases List.mem_append.1 hx with hx | hx
      · exact Or.inr (Or.inl ⟨x, hx, hex⟩)
      · rw [List.mem_singleton] at hx
        subst hx
        exact Or.inl hex
    · exact Or.inr (Or.inr he)
  refine ⟨fun idx => ?_, stn, _, hs, hopE, hnnew, ?_, fun e he => (hdom e (hused e he)).2, fun e he => ?_⟩
  · have hin : einsum stn.dom S opn = einsum tn.dom S opn := by
      funext idx
      refine einsum_dom_congr fun e he => ?_
      rcases mem_usedEdges.1 he with he | he
      · exact hsd e ((hSe e).1 he)
      · exact hsd e ((hopn' e).1 he).1
    unfold TN.value
    rw [einsum_perm hbefore, einsum_dom_congr fun e he => (hdom e (hused e he)).1, hfac, hopen', hin,
      einsum_perm (List.perm_append_comm), List.singleton_append]
    refine einsum_contract_group (fun e he => (hSe e).2 ((hopn' e).1 he).1) (fun e h1 h2 => ?_) idx
    exact (hopn' e).2 ⟨(hSe e).1 h1, h2.imp (hrest e).1 id⟩
  · rw [hnodes', Dict.set_eq_append hnnew]
  · rw [(hdom e (Or.inl he)).1, hsd e ((hopn' e).1 he).1]

/-- C18, `encapsulate`: replacing a set of nodes by the network made of them leaves the value unchanged.  The
tensor type is arbitrary; `hval` says that a network used as a tensor stands for its value.

Full statement: the same without `BoundaryFree`; that is false, see `c18_fixed_boundary_violated`. -/
theorem c18_encapsulate_partial [NetTensor τ] {val : τ → List Nat → R}
    (hval : ∀ t : TN τ, val (NetTensor.ofNet t) = t.value val)
    {tn tn' : TN τ} {ns opn : List Nm} {name : Option Nm} {ident n : Nm}
    (hc : tn.Consistent) (hr : tn.Ready) (hb : BoundaryFree tn ns)
    (hid : name = none → ident ∉ tn.nodes.keys)
    (h : tn.encapsulate ns opn name ident = (tn', .ok n)) (idx : List Nat) :
    tn'.value val idx = tn.value val idx :=
  (encapsulate_value hval hc hr hb hid h).1 idx

/-- C18, `partial_contract`: the sub-network is contracted and replaced by the resulting array.  `contract` is
any function whose result has the entries of the sub-network at all indices in range (C01 says so for
`TensorNetwork.contract`). -/
theorem c18_partial_contract_partial [NetTensor τ] {val : τ → List Nat → R}
    (hval : ∀ t : TN τ, val (NetTensor.ofNet t) = t.value val) {contract : TN τ → Except Err τ}
    (hcon : ∀ t arr, contract t = .ok arr → ∀ a : Nm → Nat, (∀ e ∈ t.openE, a e ∈ t.dom e) →
      val arr (t.openE.map a) = t.value val (t.openE.map a))
    {tn tn' : TN τ} {ns opn : List Nm} {name : Option Nm} {ident : Nm}
    (hc : tn.Consistent) (hr : tn.Ready) (hb : BoundaryFree tn ns)
    (hid : name = none → ident ∉ tn.nodes.keys)
    (h : tn.partialContract contract ns opn name ident = (tn', .ok ())) (idx : List Nat) :
    tn'.value val idx = tn.value val idx := by
  unfold TN.partialContract at h
  have henc := fun t n (h : tn.encapsulate ns opn name ident = (t, .ok n)) => encapsulate_value hval hc hr hb hid h
  revert h henc
  generalize tn.encapsulate ns opn name ident = res
  obtain ⟨t, o⟩ := res
  intro h henc
  cases o with
  | error e => cases tn.subtn ns opn <;> simp at h
  | ok n =>
    obtain ⟨hv, stn, others, hs, hopE, hnn, hnodes, hdef, hdom⟩ := henc t n rfl
    rw [hs] at h
    simp only at h
    cases hco : contract stn with
    | error e => rw [hco] at h; simp at h
    | ok arr =>
      rw [hco] at h
      simp only at h
      obtain ⟨r, E', hrn, htn', hle, _⟩ := TN.updateNode_ok h
      rw [← hv idx]
      have hget : Dict.get? t.nodes n = some { legs := opn, ten := some (NetTensor.ofNet stn), frozen := false } := by
        rw [hnodes, Dict.get?_append, Dict.get?_eq_none.2 hnn]
        simp [Dict.get?]
      rw [hget] at hrn
      cases hrn
      have hnodes' : tn'.nodes = others ++ [(n, { legs := opn, ten := some arr, frozen := false })] := by
        rw [htn']
        show Dict.set t.nodes n _ = _
        rw [hnodes]
        clear * - hnn
        induction others with
        | nil => simp [Dict.set]
        | cons p others ih =>
          obtain ⟨k, v⟩ := p
          have hk : k ≠ n := fun hc => hnn (by simp [Dict.keys, hc])
          simp only [List.cons_append, Dict.set, if_neg hk]
          rw [ih fun hc => hnn (by simp only [Dict.keys, List.map_cons, List.mem_cons]; exact Or.inr hc)]
      have hopen : tn'.openE = t.openE := by rw [htn']
      have hf1 : t.factors val = others.map (fun p => p.2.factor val) ++ [⟨opn, stn.value val⟩] := by
        unfold TN.factors
        rw [hnodes, List.map_append]
        simp only [List.map_cons, List.map_nil, NodeRec.factor, hval]
      have hf2 : tn'.factors val = others.map (fun p => p.2.factor val) ++ [⟨opn, val arr⟩] := by
        unfold TN.factors
        rw [hnodes', List.map_append]
        simp only [List.map_cons, List.map_nil, NodeRec.factor]
      unfold TN.value
      have hsameused : usedEdges (tn'.factors val) tn'.openE = usedEdges (t.factors val) t.openE := by
        unfold usedEdges
        rw [hf1, hf2, hopen]
        simp
      rw [einsum_dom_congr (dom' := t.dom), hopen, hf2, hf1]
      · refine einsum_factors_congr ?_
        refine List.rel_append ?_ ?_
        · exact List.forall₂_same.2 fun f _ => ⟨rfl, fun _ _ => rfl⟩
        · refine List.Forall₂.cons ⟨rfl, fun a ha => ?_⟩ List.Forall₂.nil
          have := hcon stn arr hco a fun e he => by
            rw [← hdom e (hopE ▸ he)]; exact ha e (hopE ▸ he)
          rw [hopE] at this
          exact this
      · intro e he
        rw [hsameused] at he
        obtain ⟨er, d, her, hd⟩ := hdef e he
        exact dom_grow rfl (by rw [htn']) hle.grow her hd

/-- Networks of arrays: C18 for the values of tensor-valued objects. -/
theorem c18_encapsulate_values_partial [Star R] {tn tn' : TN (TVal R)} {ns opn : List Nm} {name : Option Nm}
    {ident n : Nm} (hc : tn.Consistent) (hr : tn.Ready) (hb : BoundaryFree tn ns)
    (hid : name = none → ident ∉ tn.nodes.keys)
    (h : tn.encapsulate ns opn name ident = (tn', .ok n)) :
    (TVal.ofTN tn').val = (TVal.ofTN tn).val := by
  rw [TVal.val_ofTN, TVal.val_ofTN]
  exact funext fun idx => c18_encapsulate_partial (fun t => TVal.val_ofTN t) hc hr hb hid h idx

/-- Two matrices and a vector, the matrices sharing the closed edge "b"; one edge is open. -/
def encapsulateExample : List (Op (TVal Nat)) :=
  [.addNode (some (.int 0)) (.int 0) (some [.str "a", .str "b"]) (arrVal [2, 3] fun i => i.sum + 1) false,
   .addNode (some (.int 1)) (.int 1) (some [.str "b", .str "c"]) (arrVal [3, 2] fun i => i.sum * 2) false,
   .addNode (some (.int 2)) (.int 2) (some [.str "c"]) (arrVal [2] fun i => i.sum + 5) false,
   .openEdge (.str "a") none]

example : ∃ (tn tn' : TN (TVal Nat)), TN.run {} (encapsulateExample) = some tn ∧ tn.Consistent ∧ tn.Ready ∧
    BoundaryFree tn [.int 0, .int 1] ∧
    tn.encapsulate [.int 0, .int 1] [.str "c", .str "a"] none (.int 9) = (tn', .ok (.int 9)) ∧
    (TVal.ofTN tn).val [1] = 350 := by
  refine ⟨_, _, rfl, ?_, TN.ready_of_readyB rfl, ?_, rfl, by decide⟩
  · exact c11_consistent_partial (ops := encapsulateExample) ⟨trivial, trivial, trivial, trivial, trivial⟩ rfl
  · intro e r hr hn hx
    have : ∀ p ∈ ([(.str "a", { dim := some 2 }), (.str "b", { dim := some 3 }), (.str "c", { dim := some 2 })] :
        List (Nm × EdgeRec)), p.2.fix = none := by decide
    exact this (e, r) (Dict.mem_of_get? hr)

/-- When an edge on the boundary is fixed, `encapsulate` sums it freely inside the new node and changes the
value. -/
theorem c18_fixed_boundary_violated :
    ∃ (ops : List (Op (TVal Nat))) (tn tn' : TN (TVal Nat)), TN.run {} ops = some tn ∧
      tn.encapsulate [.int 0] [] none (.int 9) = (tn', .ok (.int 9)) ∧
      (TVal.ofTN tn).val [] = 1 ∧ (TVal.ofTN tn').val [] = 2 :=
  ⟨[.addNode (some (.int 0)) (.int 0) (some [.str "a"]) (arrVal [2] fun _ => 1) false,
    .addNode (some (.int 1)) (.int 1) (some [.str "a"]) (arrVal [2] fun _ => 1) false,
    .fixEdge (.str "a") [0] false], _, _, rfl, rfl, by decide, by decide⟩

end Verif
