import Verif.Model.Convert
import Verif.Lemmas.Evolve
import Verif.Lemmas.AddTotal
import Verif.Props.Wires
import Verif.Spec.Network
/-!
# The loops of `convert_pure`
-/

set_option linter.unusedSectionVars false

namespace Verif

/-! ### Qubits and indices -/

theorem startsIn_iff (l : List Letter) : Letter.startsIn l = true ↔ (l.flatMap Letter.ports).head? = some .inp := by
  cases l with
  | nil => simp [Letter.startsIn]
  | cons x l => cases x <;> simp [Letter.startsIn, Letter.ports]

theorem endsOut_iff (l : List Letter) : Letter.endsOut l = true ↔ (l.flatMap Letter.ports).getLast? = some .out := by
  induction l using List.reverseRecOn with
  | nil => simp [Letter.endsOut]
  | append_singleton l x _ =>
    rw [List.flatMap_append]
    cases x <;> simp [Letter.endsOut, Letter.ports]

theorem portsAt_mem {s : List (List Letter)} {qs : List Int} (hn : qs.Nodup) {q : Int} {l : List Letter}
    (h : (q, l) ∈ qs.zip s) : portsAt s qs q = l.flatMap Letter.ports := by
  induction qs generalizing s with
  | nil => simp at h
  | cons q' qs ih =>
    cases s with
    | nil => simp at h
    | cons l' s =>
      obtain ⟨hq, hn'⟩ := List.nodup_cons.1 hn
      rw [List.zip_cons_cons] at h
      rcases List.mem_cons.1 h with h | h
      · cases h
        have : (qs.zip s).filter (fun p => p.1 = q) = [] := by
          rw [List.filter_eq_nil_iff]
          intro p hp
          have := (List.of_mem_zip hp).1
          simp only [decide_eq_true_eq]
          rintro rfl
          exact hq this
        simp [portsAt, this]
      · have hne : q' ≠ q := fun e => hq (e ▸ (List.of_mem_zip h).1)
        have := ih hn' h
        unfold portsAt at this ⊢
        rw [List.zip_cons_cons, List.filter_cons_of_neg (by simpa using hne)]
        exact this

theorem filter_ports {s : List (List Letter)} {qs : List Int} (hl : s.length = qs.length) (hn : qs.Nodup)
    (P : List Letter → Bool) (Q : List Port → Bool) (hPQ : ∀ l, P l = Q (l.flatMap Letter.ports)) :
    ((qs.zip s).filter fun p => P p.2).map Prod.fst = qs.filter fun q => Q (portsAt s qs q) := by
  have h1 : qs = (qs.zip s).map Prod.fst := by rw [List.map_fst_zip (by omega)]
  conv_rhs => rw [h1]
  rw [List.filter_map, ← h1]
  congr 1
  refine List.filter_congr fun p hp => ?_
  obtain ⟨q, l⟩ := p
  show P l = Q (portsAt s qs q)
  rw [portsAt_mem hn hp, hPQ]

theorem indicesWith_get {s : List (List Letter)} {qs : List Int} (hl : s.length = qs.length) (P : List Letter → Bool) :
    List.Forall₂ (fun i q => qs[i]? = some q) (indicesWith P s) (((qs.zip s).filter fun p => P p.2).map Prod.fst) := by
  have key : ∀ (pre qs : List Int) (s : List (List Letter)), s.length = qs.length →
      List.Forall₂ (fun i q => (pre ++ qs)[i]? = some q) (((s.zipIdx pre.length).filter fun p => P p.1).map Prod.snd)
        (((qs.zip s).filter fun p => P p.2).map Prod.fst) := by
    intro pre qs
    induction qs generalizing pre with
    | nil => intro s hs; cases s with | nil => exact List.Forall₂.nil | cons => simp at hs
    | cons q qs ih =>
      intro s hs
      cases s with
      | nil => simp at hs
      | cons l s =>
        have h1 := ih (pre ++ [q]) s (by simpa using hs)
        have h2 : pre ++ [q] ++ qs = pre ++ q :: qs := by simp
        rw [h2, List.length_append, List.length_singleton] at h1
        rw [List.zipIdx_cons, List.zip_cons_cons, List.filter_cons, List.filter_cons]
        dsimp only
        split
        · refine List.Forall₂.cons ?_ h1
          simp
        · exact h1
  exact key [] qs s hl

namespace Circ

variable {α τ : Type} [HasShape τ]

/-- The qubit in the name of an edge. -/
def wireQubit : Nm → Int
  | .cons _ (.cons _ (.cons (.int q) .nil)) => q
  | _ => 0

/-- The time in the name of an edge. -/
def wireTime : Nm → Int
  | .cons (.int t) _ => t
  | _ => 0

@[simp] theorem wireQubit_wireName (t : Int) (i : Nat) (q : Int) : wireQubit (wireName t i q) = q := rfl
@[simp] theorem wireTime_wireName (t : Int) (i : Nat) (q : Int) : wireTime (wireName t i q) = t := rfl

theorem convOuts_spec {t : Int} {idx : Nat} {qs : List Int} {is : List Nat} {O : List Int}
    (h : List.Forall₂ (fun i q => qs[i]? = some q) is O) (hO : O.Nodup) (s : Conv τ) (hd : s.dicIn = s.dic)
    (hn : s.dic.keys.Nodup) (hno : s.dicOut.keys.Nodup) :
    ∃ s' : Conv τ, convOuts t idx qs is s = .ok (O.map fun q => (s.dic.get? q).getD (wireName (t + 1) idx q), s') ∧
      s'.dicIn = s'.dic ∧ s'.dic.keys.Nodup ∧ s'.dicOut.keys.Nodup ∧ s'.tn = s.tn ∧ s'.all = s.all ∧
      (∀ q, s'.dic.get? q = if q ∈ O then none else s.dic.get? q) ∧
      ∀ q, s'.dicOut.get? q = if q ∈ O ∧ s.dic.get? q = none then some (wireName (t + 1) idx q) else s.dicOut.get? q := by
  induction h generalizing s with
  | nil => exact ⟨s, rfl, hd, hn, hno, rfl, rfl, by simp, by simp⟩
  | @cons i q is O hi _ ih =>
    obtain ⟨hq, hO'⟩ := List.nodup_cons.1 hO
    rw [convOuts, hi]
    dsimp only
    cases hg : s.dic.get? q with
    | none =>
      obtain ⟨s', h1, h2, h3, h4, h5, h6, h7, h8⟩ := ih hO' { s with dicOut := s.dicOut.set q (wireName (t + 1) idx q) } hd hn
        (Dict.nodup_keys_set hno _ _)
      refine ⟨s', ?_, h2, h3, h4, h5, h6, fun x => ?_, fun x => ?_⟩
      · dsimp only
        rw [h1]
        simp [hg]
      · rw [h7 x]
        by_cases hx : x = q
        · subst hx; simp [hg]
        · simp [hx]
      · rw [h8 x, Dict.get?_set]
        dsimp only
        by_cases hx : x = q
        · subst hx; simp [hg, hq]
        · simp [hx, Ne.symm hx]
    | some e =>
      dsimp only
      rw [if_pos (by rw [hd, Dict.has_iff]; exact Dict.mem_keys_of_get? hg)]
      obtain ⟨s', h1, h2, h3, h4, h5, h6, h7, h8⟩ := ih hO' { s with dic := s.dic.del q, dicIn := s.dicIn.del q }
        (by dsimp only; rw [hd]) (Dict.nodup_keys_del hn _) hno
      have hget : ∀ x ∈ O, (s.dic.del q).get? x = s.dic.get? x := fun x hx => by
        rw [Dict.get?_del, if_neg fun e : x = q => hq (e ▸ hx)]
      refine ⟨s', ?_, h2, h3, h4, h5, h6, fun x => ?_, fun x => ?_⟩
      · rw [h1]
        dsimp only
        rw [List.map_cons, hg]
        congr 3
        exact List.map_congr_left fun x hx => by rw [hget x hx]
      · rw [h7 x]
        dsimp only
        rw [Dict.get?_del]
        by_cases hx : x = q
        · subst hx; simp
        · simp [hx]
      · rw [h8 x]
        dsimp only
        by_cases hx : x = q
        · subst hx; simp [hg, hq]
        · rw [Dict.get?_del, if_neg hx]
          simp [hx]

theorem convIns_spec {t : Int} {idx : Nat} {qs : List Int} {is : List Nat} {O : List Int}
    (h : List.Forall₂ (fun i q => qs[i]? = some q) is O) (s : Conv τ) (hd : s.dicIn = s.dic) (hn : s.dic.keys.Nodup) :
    ∃ s' : Conv τ, convIns t idx qs is s = .ok (O.map fun q => wireName t idx q, s') ∧
      s'.dicIn = s'.dic ∧ s'.dic.keys.Nodup ∧ s'.dicOut = s.dicOut ∧ s'.tn = s.tn ∧ s'.all = s.all ∧
      ∀ q, s'.dic.get? q = if q ∈ O then some (wireName t idx q) else s.dic.get? q := by
  induction h generalizing s with
  | nil => exact ⟨s, rfl, hd, hn, rfl, rfl, rfl, by simp⟩
  | @cons i q is O hi _ ih =>
    rw [convIns, hi]
    dsimp only
    obtain ⟨s', h1, h2, h3, h4, h5, h6, h7⟩ := ih { s with dic := s.dic.set q (wireName t idx q), dicIn := s.dicIn.set q (wireName t idx q) }
      (by dsimp only; rw [hd]) (Dict.nodup_keys_set hn _ _)
    refine ⟨s', ?_, h2, h3, h4, h5, h6, fun x => ?_⟩
    · rw [h1]; simp
    · rw [h7 x]
      dsimp only
      rw [Dict.get?_set]
      by_cases hx : x = q
      · subst hx; simp
      · simp [hx, Ne.symm hx]

theorem convEdges_spec (es : List Nm) (s : Conv τ) (ha : ∀ e, e ∈ s.all ↔ e ∈ s.tn.edges.keys)
    (hn : s.tn.edges.keys.Nodup) :
    ∃ E' A, convEdges es s = .ok { s with tn := { s.tn with edges := E' }, all := A } ∧ E'.keys.Nodup ∧
      (∀ e, e ∈ A ↔ e ∈ E'.keys) ∧
      ∀ e, E'.get? e = if e ∈ s.tn.edges.keys then s.tn.edges.get? e else if e ∈ es then some { dim := some 2 } else none := by
  induction es generalizing s with
  | nil =>
    refine ⟨s.tn.edges, s.all, rfl, hn, ha, fun e => ?_⟩
    split
    · rfl
    · next h => simpa using Dict.get?_eq_none.2 h
  | cons e es ih =>
    rw [convEdges]
    by_cases he : e ∈ s.all
    · rw [if_pos he]
      obtain ⟨E', A, h1, h2, h3, h4⟩ := ih s ha hn
      refine ⟨E', A, h1, h2, h3, fun x => ?_⟩
      rw [h4 x]
      by_cases hx : x ∈ s.tn.edges.keys
      · simp [hx]
      · have : x ≠ e := fun h => hx ((ha x).1 (h ▸ he))
        simp [hx, this]
    · rw [if_neg he]
      have hk : e ∉ s.tn.edges.keys := fun h => he ((ha e).2 h)
      have h0 : s.tn.addEdge (some e) (some 2) = ({ s.tn with edges := s.tn.edges.set e { dim := some 2 } }, .ok e) := by
        unfold TN.addEdge TN.addEdgeNamed
        dsimp only
        rw [if_neg (by rw [Dict.has_iff]; exact hk)]
      rw [h0]
      dsimp only
      obtain ⟨E', A, h1, h2, h3, h4⟩ := ih { s with tn := { s.tn with edges := s.tn.edges.set e { dim := some 2 } }, all := s.all ++ [e] }
        (fun x => by dsimp only; rw [Dict.mem_keys_set, ← ha]; simp [or_comm]) (Dict.nodup_keys_set hn _ _)
      refine ⟨E', A, h1, h2, h3, fun x => ?_⟩
      rw [h4 x]
      dsimp only
      rw [Dict.get?_set]
      by_cases hx : x = e
      · subst hx
        simp [hk, Dict.mem_keys_set]
      · simp [Dict.mem_keys_set, hx, Ne.symm hx]

/-! ### The network drawn so far -/

variable {R : Type} [CommSemiring R]

/-- The network `tn` stands for the factors `fs`, basis states and measurements being drawn as fixed edges. -/
structure Draws (val : τ → List Nat → R) (tn : TN τ) (fs : List (Factor Nm R)) : Prop where
  nodup : tn.edges.keys.Nodup
  names : tn.nodes.keys.Nodup
  dims : ∀ e r, tn.edges.get? e = some r → r.dim = some 2 ∧ ∀ l, r.fix = some l → ∀ x ∈ l, x < 2
  legs : ∀ f ∈ tn.factors val, ∀ e ∈ f.legs, e ∈ tn.edges.keys
  keys : ∀ e, e ∈ tn.edges.keys ↔ ∃ f ∈ fs, e ∈ f.legs
  loose : ∀ e r, tn.edges.get? e = some r → (∀ f ∈ tn.factors val, e ∉ f.legs) → ∃ l, r.fix = some l ∧ l.length ≤ 1
  prod : ∀ b, (∀ e ∈ tn.edges.keys, b e < 2) →
    prodAt fs b = open Classical in if ∀ e ∈ tn.edges.keys, b e ∈ tn.dom e then prodAt (tn.factors val) b else 0
  noOpen : tn.openE = []

theorem Draws.nil (val : τ → List Nat → R) : Draws val ({} : TN τ) [] := by
  refine ⟨?_, ?_, ?_, ?_, ?_, ?_, ?_, ?_⟩ <;> simp [TN.factors, Dict.keys, Dict.get?, prodAt]

/-- What is needed of an operation: a tensor with two values per leg, or the entries of a basis vector. -/
def Drawable (I : OpsIface α τ) (val : τ → List Nat → R) (ten : α → List Nat → R) (op : α) (nout nin : Nat) : Prop :=
  match I.basis op with
  | some (isState, k) => k < 2 ∧ (nout, nin) = (if isState then (1, 0) else (0, 1)) ∧
      ∀ x < 2, ten op [x] = if x = k then 1 else 0
  | none => ∃ t, I.tensor op = .ok t ∧ HasShape.shape t = some (List.replicate (nout + nin) (some 2)) ∧ ten op = val t

theorem Draws.place {I : OpsIface α τ} {val : τ → List Nat → R} {ten : α → List Nat → R} {tn : TN τ}
    {fs : List (Factor Nm R)} (h : Draws val tn fs) {gate : Nm} (hg : gate ∉ tn.nodes.keys) {op : α} {outs ins : List Nm}
    (ho : Drawable I val ten op outs.length ins.length) {E' : Dict Nm EdgeRec} (hE : E'.keys.Nodup)
    (hget : ∀ e, E'.get? e = if e ∈ tn.edges.keys then tn.edges.get? e
      else if e ∈ outs ++ ins then some { dim := some 2 } else none) :
    ∃ tn', convPlace I gate op outs ins { tn with edges := E' } = .ok tn' ∧ Draws val tn' (⟨outs ++ ins, ten op⟩ :: fs) ∧
      (∀ e, e ∈ tn'.edges.keys ↔ e ∈ E'.keys) ∧ ∀ n, n ∈ tn'.nodes.keys → n = gate ∨ n ∈ tn.nodes.keys := by
  have hk : ∀ e, e ∈ E'.keys ↔ e ∈ tn.edges.keys ∨ e ∈ outs ++ ins := fun e => by
    rw [← Dict.get?_isSome, hget e]
    by_cases h1 : e ∈ tn.edges.keys
    · simp only [h1, if_true, true_or, iff_true]; exact Dict.get?_isSome.2 h1
    · by_cases h2 : e ∈ outs ++ ins
      · simp [h1, h2]
      · rw [if_neg h1, if_neg h2]; simp [h1, h2]
  have hdims : ∀ e r, E'.get? e = some r → r.dim = some 2 ∧ ∀ l, r.fix = some l → ∀ x ∈ l, x < 2 := fun e r hr => by
    rw [hget e] at hr
    split at hr
    · exact h.dims e r hr
    · split at hr
      · cases hr; exact ⟨rfl, fun l hl => by cases hl⟩
      · cases hr
  have hkeys : ∀ e, (e ∈ tn.edges.keys ∨ e ∈ outs ++ ins) ↔ ∃ f ∈ (⟨outs ++ ins, ten op⟩ :: fs : List (Factor Nm R)), e ∈ f.legs :=
    fun e => by
      rw [h.keys e]
      simp only [List.mem_cons, exists_eq_or_imp]
      rw [or_comm]
  unfold convPlace
  unfold Drawable at ho
  cases hb : I.basis op with
  | none =>
    rw [hb] at ho
    dsimp only at ho ⊢
    obtain ⟨t, ht, hs, hten⟩ := ho
    rw [ht]
    dsimp only
    have hs' : HasShape.shape t = some (((outs ++ ins).map fun _ => 2).map some) := by
      rw [hs, List.map_map, ← List.length_append]
      congr 1
      exact List.map_const'.symm
    obtain ⟨tn', h1⟩ := TN.addNode_total (tn := { tn with edges := E' }) (n := gate) (i := gate) (es := outs ++ ins)
      (D := fun _ => 2) (isOpen := false) hg hs' (fun e _ er her => Or.inr (hdims e er her).1)
    obtain ⟨-, -, legs, fr, E'', h2, h3, h4, -⟩ := TN.addNode_ok h1
    simp only [TN.newLegs, Option.some.injEq, Prod.mk.injEq] at h2
    obtain ⟨rfl, rfl⟩ := h2
    have hmem : ∀ e, e ∈ E''.keys ↔ e ∈ E'.keys := fun e => by
      rw [h4.keys e]
      exact ⟨fun h => h.elim id fun h => (hk e).2 (Or.inr h), Or.inl⟩
    have hE'' : ∀ e, E''.get? e = E'.get? e := fun e => by
      cases hr : E'.get? e with
      | none => exact Dict.get?_eq_none.2 fun hc => (Dict.get?_eq_none.1 hr) ((hmem e).1 hc)
      | some r =>
        obtain ⟨r', hr', hf, hd⟩ := h4.grow.ent e r hr
        rw [hr']
        have h5 := hd 2 (hdims e r hr).1
        have h6 := (hdims e r hr).1
        cases r; cases r'
        simp only at hf h5 h6
        rw [hf, h5, h6]
    have hnodes : tn'.nodes = tn.nodes ++ [(gate, { legs := outs ++ ins, ten := some t, frozen := false })] := by
      rw [h3]; exact Dict.set_eq_append hg _
    have hfac : tn'.factors val = tn.factors val ++ [⟨outs ++ ins, ten op⟩] := by
      unfold TN.factors
      rw [hnodes, List.map_append, hten]; rfl
    have hedges : tn'.edges = E'' := by rw [h3]
    have hdom : ∀ e ∈ tn.edges.keys, tn'.dom e = tn.dom e := fun e he => by
      unfold TN.dom
      rw [hedges, hE'', hget e, if_pos he]
    refine ⟨tn', by rw [h1], ⟨?_, ?_, ?_, ?_, ?_, ?_, ?_, ?_⟩, ?_, ?_⟩
    · rw [hedges]; exact h4.grow.nodup hE
    · rw [hnodes, Dict.keys_append]
      exact List.nodup_append.2 ⟨h.names, by simp [Dict.keys], fun a ha b hb' e => by
        simp only [Dict.keys, List.map_cons, List.map_nil, List.mem_singleton] at hb'
        exact hg (hb' ▸ e ▸ ha)⟩
    · intro e r hr
      rw [hedges, hE''] at hr
      exact hdims e r hr
    · intro f hf e he
      rw [hedges, hmem, hk]
      rw [hfac] at hf
      rcases List.mem_append.1 hf with hf | hf
      · exact Or.inl (h.legs f hf e he)
      · rw [List.mem_singleton] at hf; subst hf; exact Or.inr he
    · intro e
      rw [hedges, hmem, hk, hkeys]
    · intro e r hr hl
      rw [hedges, hE'', hget e] at hr
      rw [hfac] at hl
      split at hr
      · exact h.loose e r hr fun f hf => hl f (by simp [hf])
      · split at hr
        · next hc => exact absurd hc (hl ⟨outs ++ ins, ten op⟩ (by simp))
        · cases hr
    · intro b hb'
      rw [hedges] at hb' ⊢
      have hb1 : ∀ e ∈ tn.edges.keys, b e < 2 := fun e he => hb' e ((hmem e).2 ((hk e).2 (Or.inl he)))
      rw [prodAt_cons, h.prod b hb1, hfac, prodAt_append]
      have hc : (∀ e ∈ E''.keys, b e ∈ tn'.dom e) ↔ ∀ e ∈ tn.edges.keys, b e ∈ tn.dom e := by
        constructor
        · intro hh e he
          rw [← hdom e he]
          exact hh e ((hmem e).2 ((hk e).2 (Or.inl he)))
        · intro hh e he
          by_cases h1 : e ∈ tn.edges.keys
          · rw [hdom e h1]; exact hh e h1
          · have h2 := ((hk e).1 ((hmem e).1 he)).resolve_left h1
            have h3 : tn'.dom e = Finset.range 2 := by
              unfold TN.dom
              rw [hedges, hE'', hget e, if_neg h1, if_pos h2]
              rfl
            rw [h3]; exact Finset.mem_range.2 (hb' e he)
      by_cases hh : ∀ e ∈ tn.edges.keys, b e ∈ tn.dom e
      · rw [if_pos hh, if_pos (hc.2 hh), mul_comm]
        simp [prodAt]
      · rw [if_neg hh, if_neg fun h' => hh (hc.1 h'), mul_zero]
    · rw [h3]; simp [h.noOpen]
    · intro e; rw [hedges, hmem]
    · intro n hn
      rw [hnodes, Dict.keys_append] at hn
      simp only [Dict.keys, List.map_cons, List.map_nil, List.mem_append, List.mem_singleton] at hn
      exact hn.symm
  | some p =>
    obtain ⟨isState, k⟩ := p
    rw [hb] at ho
    dsimp only at ho ⊢
    obtain ⟨hk2, hlen, hten⟩ := ho
    obtain ⟨e0, he0, hl0⟩ : ∃ e0, (if isState then outs else ins).head? = some e0 ∧ outs ++ ins = [e0] := by
      cases isState with
      | true =>
        simp only [if_true, Prod.mk.injEq] at hlen
        obtain ⟨e0, rfl⟩ := List.length_eq_one_iff.1 hlen.1
        have := List.length_eq_zero_iff.1 hlen.2
        subst this
        exact ⟨e0, rfl, rfl⟩
      | false =>
        simp only [Bool.false_eq_true, if_false, Prod.mk.injEq] at hlen
        obtain ⟨e0, rfl⟩ := List.length_eq_one_iff.1 hlen.2
        have := List.length_eq_zero_iff.1 hlen.1
        subst this
        exact ⟨e0, rfl, rfl⟩
    rw [he0]
    dsimp only
    obtain ⟨r, hr⟩ := Dict.exists_get? ((hk e0).2 (Or.inr (by rw [hl0]; simp)))
    -- the new list of values
    obtain ⟨l, hfix, hl1, hl2, hl3, hlk⟩ : ∃ l, TN.fixEdge { tn with edges := E' } e0 [k] =
        ({ tn with edges := E'.set e0 { r with fix := some l } }, .ok ()) ∧
        (∀ x < 2, x ∈ l ↔ x ∈ r.dom ∧ x = k) ∧ (∀ l', r.fix = some l' → l.length ≤ l'.length) ∧
        (r.fix = none → l = [k]) ∧ ∀ x ∈ l, x < 2 := by
      unfold TN.fixEdge
      dsimp only
      rw [hr]
      dsimp only
      rw [(hdims e0 r hr).1]
      dsimp only
      rw [if_pos (by simpa using hk2)]
      cases hf : r.fix with
      | none =>
        refine ⟨[k], rfl, fun x hx => ?_, fun l' hl' => (by cases hl'), fun _ => rfl, by simpa using hk2⟩
        simp [EdgeRec.dom, hf, (hdims e0 r hr).1, hx]
      | some old =>
        refine ⟨_, rfl, fun x _ => ?_, fun l' hl' => ?_, fun hl' => (by cases hl'), fun x hx => ?_⟩
        · simp [EdgeRec.dom, hf]
        · cases hl'
          exact List.length_filter_le _ _
        · exact (hdims e0 r hr).2 old hf x (List.mem_filter.1 hx).1
    rw [hfix]
    have hkk : ∀ e, e ∈ (E'.set e0 { r with fix := some l }).keys ↔ e ∈ E'.keys := fun e => by
      rw [Dict.mem_keys_set]
      exact ⟨fun h => h.elim (fun h => h ▸ Dict.mem_keys_of_get? hr) id, Or.inr⟩
    have hg' : ∀ e, (E'.set e0 { r with fix := some l }).get? e = if e0 = e then some { r with fix := some l } else E'.get? e :=
      fun e => Dict.get?_set _ _ _ _
    refine ⟨_, rfl, ⟨?_, h.names, ?_, ?_, ?_, ?_, ?_, h.noOpen⟩, hkk, fun n hn => Or.inr hn⟩
    · exact Dict.nodup_keys_set hE _ _
    · intro e r' hr'
      dsimp only at hr'
      rw [hg'] at hr'
      split at hr'
      · cases hr'
        exact ⟨(hdims e0 r hr).1, fun l' hl' x hx => by cases hl'; exact hlk x hx⟩
      · exact hdims e r' hr'
    · intro f hf e he
      exact (hkk e).2 ((hk e).2 (Or.inl (h.legs f hf e he)))
    · intro e
      dsimp only
      rw [hkk, hk, hkeys]
    · intro e r' hr' hl
      dsimp only at hr'
      rw [hg'] at hr'
      split at hr'
      · next he =>
        subst he
        cases hr'
        refine ⟨l, rfl, ?_⟩
        by_cases hold : e0 ∈ tn.edges.keys
        · rw [hget e0, if_pos hold] at hr
          obtain ⟨l', h8, h9⟩ := h.loose e0 r hr hl
          exact (hl2 l' h8).trans h9
        · -- a new edge
          rw [hget e0, if_neg hold, if_pos (by rw [hl0]; simp)] at hr
          cases hr
          rw [hl3 rfl]; simp
      · rw [hget e] at hr'
        split at hr'
        · exact h.loose e r' hr' hl
        · split at hr'
          · next hne _ hc =>
            rw [hl0, List.mem_singleton] at hc
            exact absurd hc.symm hne
          · cases hr'
    · intro b hb'
      dsimp only at hb' ⊢
      have hb1 : ∀ e ∈ tn.edges.keys, b e < 2 := fun e he => hb' e ((hkk e).2 ((hk e).2 (Or.inl he)))
      have hb0 : b e0 < 2 := hb' e0 ((hkk e0).2 (Dict.mem_keys_of_get? hr))
      rw [prodAt_cons, h.prod b hb1]
      have hat : Factor.at ⟨outs ++ ins, ten op⟩ b = if b e0 = k then 1 else 0 := by
        unfold Factor.at
        dsimp only
        rw [hl0]
        exact hten _ hb0
      rw [hat]
      have hdom0 : TN.dom { tn with edges := E'.set e0 { r with fix := some l } } e0 = l.toFinset := by
        unfold TN.dom
        dsimp only
        rw [hg', if_pos rfl]
        rfl
      have hdom1 : ∀ e, e0 ≠ e → e ∈ tn.edges.keys → TN.dom { tn with edges := E'.set e0 { r with fix := some l } } e = tn.dom e :=
        fun e he hm => by
          unfold TN.dom
          dsimp only
          rw [hg', if_neg he, hget e, if_pos hm]
      have hr0 : e0 ∈ tn.edges.keys → r.dom = tn.dom e0 := fun hm => by
        unfold TN.dom
        rw [hget e0, if_pos hm] at hr
        rw [hr]
      have hc : (∀ e ∈ (E'.set e0 { r with fix := some l }).keys,
          b e ∈ TN.dom { tn with edges := E'.set e0 { r with fix := some l } } e) ↔
          b e0 = k ∧ ∀ e ∈ tn.edges.keys, b e ∈ tn.dom e := by
        constructor
        · intro hh
          have h1 := hh e0 ((hkk e0).2 (Dict.mem_keys_of_get? hr))
          rw [hdom0, List.mem_toFinset, hl1 _ hb0] at h1
          refine ⟨h1.2, fun e he => ?_⟩
          by_cases hee : e0 = e
          · subst hee; rw [← hr0 he]; exact h1.1
          · rw [← hdom1 e hee he]
            exact hh e ((hkk e).2 ((hk e).2 (Or.inl he)))
        · rintro ⟨h1, hh⟩ e he
          by_cases hee : e0 = e
          · subst hee
            rw [hdom0, List.mem_toFinset, hl1 _ hb0]
            refine ⟨?_, h1⟩
            by_cases hm : e0 ∈ tn.edges.keys
            · rw [hr0 hm]; exact hh e0 hm
            · rw [hget e0, if_neg hm, if_pos (by rw [hl0]; simp)] at hr
              cases hr
              simpa [EdgeRec.dom] using hb0
          · have h2 := (hk e).1 ((hkk e).1 he)
            rw [hl0, List.mem_singleton] at h2
            have h3 := h2.resolve_right fun h => hee h.symm
            rw [hdom1 e hee h3]; exact hh e h3
      show _ = if _ then prodAt (tn.factors val) b else 0
      by_cases h1 : b e0 = k
      · by_cases hh : ∀ e ∈ tn.edges.keys, b e ∈ tn.dom e
        · rw [if_pos h1, if_pos hh, if_pos (hc.2 ⟨h1, hh⟩), one_mul]
        · rw [if_neg hh, if_neg fun h' => hh (hc.1 h').2, mul_zero]
      · rw [if_neg h1, zero_mul, if_neg fun h' => h1 (hc.1 h').1]

end Circ

end Verif
