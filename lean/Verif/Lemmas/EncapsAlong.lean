import Verif.Model.Patch
import Verif.Lemmas.Loose
import Verif.Lemmas.PinGroup
import Verif.Lemmas.Compiled
import Verif.Lemmas.Orders
/-! # Helper lemmas: the steps the compiler does ahead of the slices -/

set_option linter.unusedSectionVars false

namespace Verif

variable {R : Type} [CommSemiring R] {L : Type} [AddCommMonoid L] {τ : Type}

theorem TN.fixAll_noFix {tn : TN τ} (h : NoFix tn) : tn.fixAll = tn := by
  unfold TN.fixAll
  generalize tn.edges.keys = ks
  induction ks with
  | nil => rfl
  | cons k ks ih =>
    have : tn.fix1 k = tn := by
      unfold TN.fix1
      split
      · next hg => exact absurd (h k _ hg) (by simp)
      · rfl
    rw [List.foldl_cons, this]
    exact ih

/-- What stays the same when groups of nodes are replaced by single nodes. -/
structure Collapsed [HasShape τ] (D : Nm → Nat) (tn tn' : TN τ) : Prop where
  cons : tn'.Consistent
  loose : tn'.Loose D
  nofix : NoFix tn'
  even : ∀ d, tn.Even d → tn'.Even d
  openE : tn'.openE = tn.openE
  edges : ∀ e ∈ tn.openE, tn'.edges.get? e = tn.edges.get? e
  edgeKeys : ∃ f : Nm → Bool, (∀ e ∈ tn.openE, f e = true) ∧ tn'.edges.keys = tn.edges.keys.filter f
  att : ∀ e ∈ tn.openE, (∃ p ∈ tn.nodeLegs, e ∈ p.2) → ∃ p ∈ tn'.nodeLegs, e ∈ p.2

theorem Collapsed.refl [HasShape τ] {D : Nm → Nat} {tn : TN τ} (hc : tn.Consistent) (hl : tn.Loose D) (hx : NoFix tn) :
    Collapsed D tn tn :=
  ⟨hc, hl, hx, fun _ h => h, rfl, fun _ _ => rfl, ⟨fun _ => true, fun _ _ => rfl, by simp⟩, fun _ _ h => h⟩

theorem Collapsed.trans [HasShape τ] {D : Nm → Nat} {a b c : TN τ} (h : Collapsed D a b) (h' : Collapsed D b c) :
    Collapsed D a c := by
  obtain ⟨f, hf1, hf2⟩ := h.edgeKeys
  obtain ⟨g, hg1, hg2⟩ := h'.edgeKeys
  have ho := h.openE
  refine ⟨h'.cons, h'.loose, h'.nofix, fun d hd => h'.even d (h.even d hd), h'.openE.trans ho,
    fun e he => (h'.edges e (by rw [ho]; exact he)).trans (h.edges e he), ⟨fun e => g e && f e, fun e he => ?_, ?_⟩,
    fun e he hp => h'.att e (by rw [ho]; exact he) (h.att e he hp)⟩
  · dsimp only; rw [hf1 e he, hg1 e (by rw [ho]; exact he)]; rfl
  · rw [hg2, hf2, List.filter_filter]

theorem Encapsulated.collapsed [NetTensor τ] {D : Nm → Nat} {tn tn' stn : TN τ} {ns opn : List Nm} {z : Nm}
    (h : Encapsulated D tn tn' stn ns opn z) : Collapsed D tn tn' := by
  refine ⟨h.cons, h.loose, h.nofix, h.even, h.openE, h.edges, h.edgeKeys, fun e he ⟨p, hp, hl⟩ => ?_⟩
  rw [h.nodeLegs]
  rcases List.mem_append.1 (h.sub_legs.mem_iff.1 hp) with h1 | h1
  · exact ⟨(z, opn), by simp, (h.mem e).2 ⟨⟨p, h1, hl⟩, Or.inr he⟩⟩
  · exact ⟨p, List.mem_append_left _ h1, hl⟩

theorem Encapsulated.keys [NetTensor τ] {D : Nm → Nat} {tn tn' stn : TN τ} {ns opn : List Nm} {z : Nm}
    (h : Encapsulated D tn tn' stn ns opn z) :
    tn'.nodes.keys = (tn.nodes.keys.filter fun n => !(ns.contains n)) ++ [z] := by
  rw [← nodeLegs_fst, h.nodeLegs, List.map_append, ← nodeLegs_fst, List.filter_map]
  rfl

section
variable [NetTensor τ] {D : Nm → Nat} {perm : List Nm → List Nm}

/-- One step of an order. -/
theorem encStep_ok {tn : TN τ} (hperm : ∀ l, (perm l).Perm l) (hc : tn.Consistent) (hl : tn.Loose D) (hx : NoFix tn)
    {xs rest : List Nm} {z : Nm} (hp : tn.nodes.keys.Perm (xs ++ rest)) (hz : z ∉ rest) :
    ∃ tn' stn, tn.subtn xs (perm (tn.boundaryOfNodes xs)) = .ok stn ∧
      tn.encapsulate xs (perm (tn.boundaryOfNodes xs)) (some z) z = (tn', .ok z) ∧
      Encapsulated D tn tn' stn xs (perm (tn.boundaryOfNodes xs)) z ∧ tn'.nodes.keys.Perm (z :: rest) ∧
      (perm (tn.boundaryOfNodes xs)).Nodup := by
  have hnd : (xs ++ rest).Nodup := hp.nodup_iff.1 hc.nodes_nodup
  have hf : (tn.nodes.keys.filter fun n => !(xs.contains n)).Perm rest := by
    refine (hp.filter _).trans ?_
    rw [List.filter_append, List.filter_eq_nil_iff.2 (fun a ha => by simpa using ha), List.nil_append,
      List.filter_eq_self.2 (fun a ha => ?_)]
    simpa using fun h => (List.disjoint_of_nodup_append hnd) h ha
  obtain ⟨tn', stn, h1, h2, h3⟩ := encapsulate_loose (ident := z) (opn := perm (tn.boundaryOfNodes xs)) hc hl hx
    hnd.of_append_left (fun n hn => hp.mem_iff.2 (List.mem_append_left _ hn)) (fun h => hz (hf.mem_iff.1 h))
    (fun e => (hperm _).mem_iff)
  refine ⟨tn', stn, h1, h2, h3, ?_, (hperm _).nodup_iff.2 (hc.edges_nodup.filter _)⟩
  rw [h3.keys]
  exact (List.perm_append_comm).trans (List.Perm.cons z hf)

/-- Encapsulating along a valid order works. -/
theorem encAlong_ok (hperm : ∀ l, (perm l).Perm l) {ns live : List Nm} {o : List OrderStep} (hr : Runs ns o live)
    {tn : TN τ} (hk : tn.nodes.keys.Perm ns) (hc : tn.Consistent) (hl : tn.Loose D) (hx : NoFix tn) (d : Dict Nm Nat) :
    ∃ tn' d', encAlong perm o tn d = .ok (tn', d') ∧ Collapsed D tn tn' ∧ tn'.nodes.keys.Perm live := by
  induction hr generalizing tn d with
  | nil h => exact ⟨tn, d, rfl, .refl hc hl hx, hk.trans h⟩
  | cons h1 h2 h3 _ ih =>
    obtain ⟨tn1, stn, _, e2, e3, e4, _⟩ := encStep_ok hperm hc hl hx (hk.trans h1) h3
    obtain ⟨tn2, d2, k1, k2, k3⟩ := ih e4 e3.cons e3.loose e3.nofix (d.set _ _)
    exact ⟨tn2, d2, by rw [encAlong, e2]; exact k1, e3.collapsed.trans k2, k3⟩

theorem initCmds_stop (init rest : List OrderStep) (xs : List Nm) (hne : ∀ s ∈ init, s.2 ≠ .str "#") (tn : TN τ)
    (ref : Dict Nm Nat) (nx : Nat) :
    initCmds perm (init ++ (xs, .str "#") :: rest) tn ref nx = initCmds perm init tn ref nx := by
  induction init generalizing tn ref nx with
  | nil => simp [initCmds]
  | cons s init ih =>
    obtain ⟨ys, z⟩ := s
    have hz : z ≠ .str "#" := hne (ys, z) (by simp)
    rw [List.cons_append, initCmds, initCmds, if_neg hz, if_neg hz]
    simp only [ih fun s hs => hne s (by simp [hs])]

/-- The factors of the nodes with the edges `P` pinned. -/
def pinned (P : List Nm) (σ : Nm → Nat) (arr : Nm → Arr R) (nl : List (Nm × List Nm)) : List (Factor Nm R) :=
  nl.map fun p => Factor.pin P σ ⟨p.2, (arr p.1).get⟩

theorem CellHolds.set {ref : Dict Nm Nat} {h h' : Heap L R} {n : Nm} {legs : List Nm} {s : L} {a : Arr R} {z : Nm} {nx : Nat}
    (hc : CellHolds D ref h n legs s a) (hz : n ≠ z) (hd : ∀ c, ref.get? n = some c → h'.data c = h.data c) :
    CellHolds D (ref.set z nx) h' n legs s a := by
  obtain ⟨c, h1, h2, h3⟩ := hc
  exact ⟨c, by rw [Dict.get?_set, if_neg (Ne.symm hz), h1], by rw [hd c h1, h2], h3⟩

/-- One step replaces the factors of the group by their contraction. -/
theorem Encapsulated.value {tn tn' stn : TN τ} {ns opn : List Nm} {z : Nm} (h : Encapsulated D tn tn' stn ns opn z)
    (hz : z ∉ tn.nodes.keys) {arr : Nm → Arr R} {r : Arr R}
    (hr : ∀ idx, r.get idx = einsum (fun e => Finset.range (D e)) (stn.nodeLegs.map fun p => ⟨p.2, (arr p.1).get⟩) opn idx)
    {P opn' : List Nm} {σ : Nm → Nat} (hP : ∀ e ∈ P, e ∈ tn.openE) (ho : ∀ e ∈ opn', e ∈ tn.openE)
    (hσ : ∀ e ∈ P, σ e < D e) (idx : List Nat) :
    einsum (fun e => Finset.range (D e)) (pinned P σ (Function.update arr z r) tn'.nodeLegs) opn' idx =
      einsum (fun e => Finset.range (D e)) (pinned P σ arr tn.nodeLegs) opn' idx := by
  set rest := tn.nodeLegs.filter fun p => !(ns.contains p.1) with hrest
  have hsame : pinned P σ (Function.update arr z r) rest = pinned P σ arr rest := by
    refine List.map_congr_left fun p hp => ?_
    have : p.1 ≠ z := by
      rintro rfl
      refine hz ?_
      rw [← nodeLegs_fst]
      exact List.mem_map_of_mem (List.mem_filter.1 hp).1
    rw [Function.update_of_ne this]
  have e1 : pinned P σ (Function.update arr z r) tn'.nodeLegs =
      pinned P σ arr rest ++ [Factor.pin P σ ⟨opn, r.get⟩] := by
    rw [h.nodeLegs]
    unfold pinned at hsame ⊢
    rw [List.map_append, hsame, List.map_singleton, Function.update_self]
  have e2 : r.get = einsum (fun e => Finset.range (D e)) (stn.nodeLegs.map fun p => ⟨p.2, (arr p.1).get⟩) opn :=
    funext hr
  have hmap : ∀ nl : List (Nm × List Nm), pinned P σ arr nl =
      (nl.map fun p => (⟨p.2, (arr p.1).get⟩ : Factor Nm R)).map (Factor.pin P σ) := by
    intro nl
    unfold pinned
    rw [List.map_map]
    rfl
  have hleg : ∀ (nl : List (Nm × List Nm)) e, (∃ f ∈ nl.map fun p => (⟨p.2, (arr p.1).get⟩ : Factor Nm R), e ∈ f.legs) ↔
      ∃ p ∈ nl, e ∈ p.2 := by
    intro nl e
    constructor
    · rintro ⟨f, hf, he⟩
      obtain ⟨p, hp, rfl⟩ := List.mem_map.1 hf
      exact ⟨p, hp, he⟩
    · rintro ⟨p, hp, he⟩
      exact ⟨_, List.mem_map.2 ⟨p, hp, rfl⟩, he⟩
  rw [e1, einsum_perm List.perm_append_comm, List.singleton_append, e2, hmap rest, einsum_pin_group]
  · rw [← List.map_append, ← hmap]
    exact einsum_perm ((h.sub_legs.symm).map _) _ _
  · intro e he; exact Finset.mem_range.2 (hσ e he)
  · intro e he; rw [hleg]; exact ((h.mem e).1 he).1
  · intro e h1 h2
    rw [hleg] at h1 h2
    refine (h.mem e).2 ⟨h1, ?_⟩
    rcases h2 with h2 | h2 | h2
    · exact Or.inl h2
    · exact Or.inr (ho e h2)
    · exact Or.inr (hP e h2)

theorem Encapsulated.sub_canonical {tn tn' stn : TN τ} {ns opn : List Nm} {z : Nm} (h : Encapsulated D tn tn' stn ns opn z)
    (hns : ns ≠ []) (hnd : opn.Nodup) : stn.Canonical := by
  refine ⟨by rw [h.sub_open]; exact hnd, fun e he => ?_, fun e _ r hr => h.sub_nofix e r hr, fun h0 => hns ?_⟩
  · rw [h.sub_open] at he
    obtain ⟨p, hp, hl⟩ := ((h.mem e).1 he).1
    obtain ⟨r, hr, hrl⟩ := (mem_nodeLegs h.sub_cons).1 hp
    exact ⟨p.1, r, hr, by rw [hrl]; exact hl⟩
  · rw [← h.sub_keys, h0]; rfl

/-- The steps done ahead exist and leave the value as it is. -/
theorem initCmds_ok (L : Type) [AddCommMonoid L] (R : Type) [CommSemiring R] (hperm : ∀ l, (perm l).Perm l)
    {ns live : List Nm} {o : List OrderStep} (hr : Runs ns o live)
    (hs : SingleAssignment ns o) (hne : ∀ s ∈ o, s.2 ≠ .str "#")
    {tn : TN τ} (hk : tn.nodes.keys.Perm ns) (hc : tn.Consistent) (hl : tn.Loose D) (hx : NoFix tn) {ref : Dict Nm Nat}
    {nx : Nat} (hlt : ∀ n c, ref.get? n = some c → c < nx) (href : ∀ n ∈ tn.nodes.keys, n ∈ ref.keys) :
    ∃ cmds tn' ref' nx', initCmds perm o tn ref nx = .ok (cmds, tn', ref', nx') ∧ Collapsed D tn tn' ∧
      tn'.nodes.keys.Perm live ∧ nx ≤ nx' ∧ (∀ n c, ref'.get? n = some c → c < nx') ∧
      (∀ n ∈ tn'.nodes.keys, n ∈ ref'.keys) ∧
      ∀ (E : Engine L R) (h : Heap L R) (arr : Nm → Arr R), E.nrm = none → (∀ l, (E.ord l).Perm l) →
        (∀ p ∈ tn.nodeLegs, CellHolds D ref h p.1 p.2 0 (arr p.1)) →
        ∃ h1 arr', runCmds E cmds h = some h1 ∧ h1.fix = h.fix ∧ (∀ c, c < nx → h1.data c = h.data c) ∧
          (∀ p ∈ tn'.nodeLegs, CellHolds D ref' h1 p.1 p.2 0 (arr' p.1)) ∧
          ∀ (P opn' : List Nm) (σ : Nm → Nat), (∀ e ∈ P, e ∈ tn.openE) → (∀ e ∈ opn', e ∈ tn.openE) →
            (∀ e ∈ P, σ e < D e) → ∀ idx,
            einsum (fun e => Finset.range (D e)) (pinned P σ arr' tn'.nodeLegs) opn' idx =
              einsum (fun e => Finset.range (D e)) (pinned P σ arr tn.nodeLegs) opn' idx := by
  induction hr generalizing tn ref nx with
  | nil h =>
    exact ⟨[], tn, ref, nx, rfl, .refl hc hl hx, hk.trans h, le_rfl, hlt, href, fun E h arr _ _ hcell =>
      ⟨h, arr, rfl, rfl, fun _ _ => rfl, hcell, fun _ _ _ _ _ _ _ => rfl⟩⟩
  | @cons ns xs rest ns' z o h1 h2 h3 h4 ih =>
    obtain ⟨tn1, stn, e1, e2, e3, e4, e5⟩ := encStep_ok hperm hc hl hx (hk.trans h1) h3
    have hzs : z ≠ .str "#" := hne (xs, z) (by simp)
    have hzk : z ∉ tn.nodes.keys := by
      intro h
      unfold SingleAssignment at hs
      exact (List.disjoint_of_nodup_append hs) (hk.mem_iff.1 h) (by simp)
    have hs1 : SingleAssignment (z :: rest) o := by
      unfold SingleAssignment at hs ⊢
      have hp : (ns ++ (((xs, z) :: o).map (·.2))).Perm (xs ++ ((z :: rest) ++ o.map (·.2))) := by
        rw [List.map_cons]
        refine (List.Perm.append_right _ h1).trans ?_
        rw [List.append_assoc]
        exact List.Perm.append_left xs List.perm_middle
      exact (hp.nodup_iff.1 hs).of_append_right
    have hget : ∀ n, n ∈ tn.nodes.keys → (ref.set z nx).get? n = ref.get? n := by
      intro n hn
      rw [Dict.get?_set, if_neg]
      rintro rfl
      exact hzk hn
    have hsub : ∀ p ∈ stn.nodeLegs, p ∈ tn.nodeLegs := fun p hp => e3.sub_legs.mem_iff.2 (List.mem_append_left _ hp)
    have hkey : ∀ p ∈ tn.nodeLegs, p.1 ∈ tn.nodes.keys := fun p hp => by
      rw [← nodeLegs_fst]; exact List.mem_map_of_mem hp
    obtain ⟨cmd, hcmd, hcrun⟩ := finalCmd_ok (L := L) (R := R) (dims := D) (nx := nx) (order := []) (last := z)
      (ref := ref.set z nx) e3.sub_cons (e3.sub_canonical h2 e5)
      (fun e => by
        unfold TN.isFixed
        cases hg : stn.edges.get? e with
        | none => rfl
        | some r => simp [e3.sub_nofix e r hg]) (Or.inl rfl) (fun n hn => by
        rw [Dict.mem_keys_set]
        rw [e3.sub_keys] at hn
        exact Or.inr (href n ((hk.trans h1).mem_iff.2 (List.mem_append_left _ hn))))
    obtain ⟨cmds, tn2, ref2, nx2, k1, k2, k3, k4, k5, k6, k7⟩ := ih hs1 (fun s hs => hne s (by simp [hs])) e4 e3.cons
      e3.loose e3.nofix (ref := ref.set z nx) (nx := nx + 1) (fun n c hn => by
        rw [Dict.get?_set] at hn
        split at hn
        · cases hn; omega
        · have := hlt n c hn; omega) (fun n hn => by
        rw [Dict.mem_keys_set]
        rcases List.mem_cons.1 (e4.mem_iff.1 hn) with h | h
        · exact Or.inl h
        · exact Or.inr (href n ((hk.trans h1).mem_iff.2 (List.mem_append_right _ h))))
    refine ⟨cmd :: cmds, tn2, ref2, nx2, ?_, e3.collapsed.trans k2, k3, by omega, k5, k6, ?_⟩
    · rw [initCmds, if_neg hzs, e1, e2]
      dsimp only
      rw [hcmd]
      dsimp only
      rw [k1]
    · intro E h arr hnrm hord hcell
      obtain ⟨r, hrun, hrs, hrg⟩ := hcrun E h arr hord (fun p hp => by
        exact (hcell p (hsub p hp)).set (fun hz => hzk (hz ▸ hkey p (hsub p hp))) fun _ _ => rfl)
      have hfin : E.finish 0 r = (0, r) := by unfold Engine.finish; rw [hnrm]
      rw [hfin] at hrun
      rw [e3.sub_open] at hrs hrg
      obtain ⟨h1', arr', m1, m2, m3, m4, m5⟩ := k7 E (h.put nx (0, r)) (Function.update arr z r) hnrm hord (fun p hp => by
        rw [e3.nodeLegs] at hp
        rcases List.mem_append.1 hp with hp | hp
        · have hp' := (List.mem_filter.1 hp).1
          have hpz : p.1 ≠ z := fun hz => hzk (hz ▸ hkey p hp')
          rw [Function.update_of_ne hpz]
          refine (hcell p hp').set hpz fun c hcc => ?_
          show (if c = nx then _ else _) = _
          rw [if_neg (by have := hlt _ _ hcc; omega)]
        · simp only [List.mem_singleton] at hp
          subst hp
          refine ⟨nx, by rw [Dict.get?_set, if_pos rfl], ?_, ?_⟩
          · show (if nx = nx then _ else _) = _
            rw [if_pos rfl, Function.update_self]
          · rw [Function.update_self]; exact hrs)
      refine ⟨h1', arr', by rw [runCmds, hrun]; exact m1, m2, fun c hcx => ?_, m4, fun P opn' σ hP ho hσ idx => ?_⟩
      · rw [m3 c (by omega)]
        show (if c = nx then _ else _) = _
        rw [if_neg (by omega)]
      · rw [m5 P opn' σ (fun e he => by rw [e3.openE]; exact hP e he) (fun e he => by rw [e3.openE]; exact ho e he) hσ]
        exact e3.value hzk hrg hP ho hσ idx

end

end Verif
