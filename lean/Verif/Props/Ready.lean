import Verif.Model.Ready
import Verif.Spec.Ready
import Verif.Props.Valid
import Verif.Props.Sum
import Verif.Props.Operators
/-! # C78: what `is_ready` decides, and that a ready tensor can be contracted -/

namespace Verif

namespace TVal

section decide

variable {R : Type}

/-- Networks made by orderly edits (C15: `orderly_step`), at every level of nesting. -/
inductive Tidy : TVal R → Prop
  | ten (a : Option (Arr R)) : Tidy (.ten a)
  | net {tn : TN (TVal R)} {t : TVal R} : t = ofTN tn → tn.Orderly →
      (∀ n r t, tn.nodes.get? n = some r → r.ten = some t → Tidy t) → Tidy t
  | sum {ts : List (Nm × TVal R)} : (∀ p ∈ ts, Tidy p.2) → Tidy (.sum ts)
  | view {t : TVal R} : Tidy t → Tidy (.view t)

theorem graphShape_orderly {tn : TN (TVal R)} (h : tn.Orderly) {n : Nm} {r : NodeRec (TVal R)} (hr : tn.nodes.get? n = some r) :
    tn.graphShape n = some (r.legs.map tn.edim) := by
  unfold TN.graphShape
  rw [h.order n r hr]
  have hl := h.cons.legs_exist n r hr
  generalize r.legs = l at hl
  induction l with
  | nil => rfl
  | cons e l ih =>
    obtain ⟨q, hq⟩ := Dict.exists_get? (hl e (by simp))
    rw [List.mapM_cons, ih fun e he => hl e (by simp [he]), hq]
    simp [TN.edim, hq]

theorem sumValid_iff (ts : List (Nm × TVal R)) : sumValid ts = true ↔ Compatible (ts.filterMap fun p => p.2.shape) := by
  have h := TSum.scan_spec ts [] none (rfl : TSum.MergeOf [] none)
  unfold sumValid
  cases hs : TSum.scan ts none with
  | ok c =>
    rw [hs] at h
    simp only [true_iff]
    cases c with
    | none =>
      have h : TSum.shapesOf ts = [] := h
      intro t ht
      have ht : t ∈ TSum.shapesOf ts := ht
      rw [h] at ht
      cases ht
    | some s => exact TSum.IsMerge.compatible h.2
  | error e =>
    rw [hs] at h
    refine ⟨fun h' => by simp at h', fun h' => (h.2 h').elim⟩

theorem readyTerms_iff {ts : List (Nm × TVal R)} (h : ∀ p ∈ ts, ∃ b, isReady p.2 = some b ∧ (b = true ↔ Definite p.2)) :
    ∃ b, readyTerms ts = some b ∧ (b = true ↔ ∀ p ∈ ts, Definite p.2) := by
  induction ts with
  | nil => exact ⟨true, by rw [readyTerms], by simp⟩
  | cons p ts ih =>
    obtain ⟨b, h1, h2⟩ := ih fun p hp => h p (by simp [hp])
    obtain ⟨n, t⟩ := p
    obtain ⟨b', h3, h4⟩ := h (n, t) (by simp)
    rw [readyTerms, h3]
    cases b' with
    | true => exact ⟨b, h1, by simp only [List.forall_mem_cons, ← h4, h2]; simp⟩
    | false => exact ⟨false, rfl, by simp only [List.forall_mem_cons, ← h4]; simp⟩

theorem eq_of_ofTN {s s' : TN (TVal R)} (h : ofTN s = ofTN s') : s = s' := by
  cases s; cases s'
  unfold ofTN at h
  cases h
  rfl

theorem definite_net_iff {tn : TN (TVal R)} : Definite (ofTN tn) ↔
    ∀ n r, tn.nodes.get? n = some r → ∃ t, r.ten = some t ∧ t.shape = some (r.legs.map tn.edim) ∧ Definite t := by
  constructor
  · intro h
    generalize hu : ofTN tn = u at h
    cases h with
    | net e h1 h2 =>
      cases eq_of_ofTN (hu.trans e)
      intro n r hr
      obtain ⟨t, a, b⟩ := h1 n r hr
      exact ⟨t, a, b, h2 n r t hr a⟩
    | _ => unfold ofTN at hu; cases hu
  · intro h
    refine .net rfl (fun n r hr => ?_) fun n r t hr ht => ?_
    · obtain ⟨t, a, b, -⟩ := h n r hr
      exact ⟨t, a, b⟩
    · obtain ⟨t', a, -, c⟩ := h n r hr
      rw [ht] at a; cases a
      exact c

theorem readyNodes_iff {tn : TN (TVal R)} (ho : tn.Orderly)
    (h : ∀ n r t, tn.nodes.get? n = some r → r.ten = some t → ∃ b, isReady t = some b ∧ (b = true ↔ Definite t)) :
    ∀ l : List (Nm × NodeRec (TVal R)), (∀ p ∈ l, tn.nodes.get? p.1 = some p.2) →
      ∃ b, readyNodes tn l = some b ∧ (b = true ↔
        ∀ p ∈ l, ∃ t, p.2.ten = some t ∧ t.shape = some (p.2.legs.map tn.edim) ∧ Definite t)
  | [], _ => ⟨true, by rw [readyNodes], by simp⟩
  | (n, ⟨legs, none, fr⟩) :: l, hl => by
    have := ho.full n _ (hl (n, ⟨legs, none, fr⟩) (by simp))
    simp at this
  | (n, ⟨legs, some t, fr⟩) :: l, hl => by
    obtain ⟨b, h1, h2⟩ := readyNodes_iff ho h l fun p hp => hl p (by simp [hp])
    have hr := hl (n, ⟨legs, some t, fr⟩) (by simp)
    obtain ⟨b', h3, h4⟩ := h n _ t hr rfl
    rw [readyNodes, h3]
    have hg : tn.graphShape n = some (legs.map tn.edim) := graphShape_orderly ho hr
    cases b' with
    | false =>
      refine ⟨false, rfl, ?_⟩
      simp only [List.forall_mem_cons, Option.some.injEq, exists_eq_left', ← h4]
      simp
    | true =>
      dsimp only
      rw [hg]
      dsimp only
      by_cases hs : some (legs.map tn.edim) = t.shape
      · rw [if_pos hs]
        refine ⟨b, h1, ?_⟩
        simp only [List.forall_mem_cons, Option.some.injEq, exists_eq_left', ← h4, h2]
        simp [hs]
      · rw [if_neg hs]
        refine ⟨false, rfl, ?_⟩
        simp only [List.forall_mem_cons, Option.some.injEq, exists_eq_left']
        refine ⟨fun h => by simp at h, fun h => (hs h.1.1.symm).elim⟩

/-- **C78**: `is_ready` does not raise, and answers True exactly when the tensor stands for a definite array: all data is
given, and all dimensions agree.

Full statement: for every reachable object.  It fails when a leg is repeated (`c78_repeated_leg_violated`), because the
check goes through the incidence graph. -/
theorem c78_is_ready_partial {t : TVal R} (h : Tidy t) : ∃ b, isReady t = some b ∧ (b = true ↔ Definite t) := by
  induction h with
  | ten a =>
    refine ⟨a.isSome, by rw [isReady], ?_⟩
    cases a with
    | none => exact ⟨fun h => by simp at h, fun h => by
        generalize hu : TVal.ten (none : Option (Arr R)) = u at h
        cases h with
        | net e _ _ => unfold ofTN at e; rw [e] at hu; cases hu
        | _ => cases hu⟩
    | some a => exact ⟨fun _ => .ten a, fun _ => rfl⟩
  | @net tn u e ho _ ih =>
    subst e
    obtain ⟨b, h1, h2⟩ := readyNodes_iff ho ih tn.nodes fun p hp => Dict.get?_of_mem ho.cons.nodes_nodup hp
    refine ⟨b, by unfold ofTN; rw [isReady]; exact h1, h2.trans ?_⟩
    rw [definite_net_iff]
    exact ⟨fun h n r hr => h (n, r) (Dict.mem_of_get? hr), fun h p hp => h p.1 p.2 (Dict.get?_of_mem ho.cons.nodes_nodup hp)⟩
  | @sum ts _ ih =>
    obtain ⟨b, h1, h2⟩ := readyTerms_iff ih
    have key : Definite (.sum ts) ↔ (∀ p ∈ ts, Definite p.2) ∧ Compatible (ts.filterMap fun p => p.2.shape) := by
      refine ⟨fun h => ?_, fun h => .sum h.1 h.2⟩
      generalize hu : TVal.sum ts = u at h
      cases h with
      | sum a b => cases hu; exact ⟨a, b⟩
      | net e _ _ => unfold ofTN at e; rw [e] at hu; cases hu
      | _ => cases hu
    rw [isReady, h1]
    cases b with
    | false => exact ⟨false, rfl, by rw [key, ← h2]; simp⟩
    | true => exact ⟨sumValid ts, rfl, by rw [key, ← h2, sumValid_iff]; simp⟩
  | @view u _ ih =>
    obtain ⟨b, h1, h2⟩ := ih
    refine ⟨b, by rw [isReady]; exact h1, h2.trans ⟨.view, fun h => ?_⟩⟩
    generalize hu : TVal.view u = v at h
    cases h with
    | view a => cases hu; exact a
    | net e _ _ => unfold ofTN at e; rw [e] at hu; cases hu
    | _ => cases hu

end decide

/-! ## A ready tensor can be contracted -/

variable {R : Type}

/-- Arrays (given or not), non-empty sums, and networks nested at most `d` deep, with harmless names, where every edge is
on a leg and fixed to at most one value in range: everything `Solid` asks for that `is_ready` does not check. -/
inductive Sturdy : Nat → TVal R → Prop
  | ten {d : Nat} (a : Option (Arr R)) : Sturdy d (.ten a)
  | sum {d : Nat} {ts : List (Nm × TVal R)} : ts ≠ [] → (∀ p ∈ ts, Sturdy d p.2) → Sturdy (d + 1) (.sum ts)
  | net {d : Nat} {tn : TN (TVal R)} {t : TVal R} : t = ofTN tn → tn.Orderly → Named tn → TopNames tn → tn.FixShort →
      (∀ e q f d, tn.edges.get? e = some q → q.fix = some f → q.dim = some d → ∀ v ∈ f, v < d) →
      (∀ e ∈ tn.edges.keys, ∃ p ∈ tn.nodes, e ∈ p.2.legs) →
      (∀ n r t, tn.nodes.get? n = some r → r.ten = some t → Sturdy d t) → Sturdy (d + 1) t

theorem Sturdy.tidy {d : Nat} {t : TVal R} (h : Sturdy d t) : Tidy t := by
  induction h with
  | ten a => exact .ten a
  | sum _ _ ih => exact .sum ih
  | net e ho _ _ _ _ _ _ ih => exact .net e ho ih

theorem map_some_of {l : List (Option Nat)} (h : ∀ x ∈ l, ∃ d, x = some d) : ∃ sh : List Nat, l = sh.map some := by
  induction l with
  | nil => exact ⟨[], rfl⟩
  | cons a l ih =>
    obtain ⟨sh, h1⟩ := ih fun x hx => h x (by simp [hx])
    obtain ⟨d, rfl⟩ := h a (by simp)
    exact ⟨d :: sh, by simp [h1]⟩

theorem compatible_eq {ss : List (List (Option Nat))} (h : Compatible ss) {a b : List Nat} (ha : a.map some ∈ ss) (hb : b.map some ∈ ss) :
    a = b := by
  obtain ⟨h1, h2⟩ := h _ ha _ hb
  refine List.ext_getElem (by simpa using h1) fun i g1 g2 => h2 i _ _ (by simp [List.getElem?_eq_getElem g1]) (by simp [List.getElem?_eq_getElem g2])

/-- A definite sturdy tensor has a known shape and is solid. -/
theorem Sturdy.solid [CommSemiring R] [Star R] {d : Nat} {t : TVal R} (h : Sturdy d t) : Definite t → (∃ sh : List Nat, t.shape = some (sh.map some)) ∧ Solid d t := by
  induction h with
  | ten a =>
    intro h
    generalize hu : TVal.ten a = u at h
    cases h with
    | ten a => exact ⟨⟨a.shape, by rw [shape]⟩, .ten a⟩
    | net e _ _ => unfold ofTN at e; rw [e] at hu; cases hu
    | _ => cases hu
  | @sum d ts hne _ ih =>
    intro h
    generalize hu : TVal.sum ts = u at h
    cases h with
    | @sum ts' h1 h2 =>
      cases hu
      obtain ⟨p, hp⟩ := List.exists_mem_of_ne_nil _ hne
      obtain ⟨⟨sh, hsh⟩, -⟩ := ih p hp (h1 p hp)
      have hall : ∀ q ∈ ts, q.2.shape = some (sh.map some) := by
        intro q hq
        obtain ⟨⟨sh', hsh'⟩, -⟩ := ih q hq (h1 q hq)
        rw [hsh', compatible_eq h2 (a := sh') (b := sh) (List.mem_filterMap.2 ⟨q, hq, hsh'⟩) (List.mem_filterMap.2 ⟨p, hp, hsh⟩)]
      exact ⟨⟨sh, by
        rw [shape]
        cases ts with
        | nil => exact (hne rfl).elim
        | cons p ts =>
          obtain ⟨n, t⟩ := p
          simp only [termsShape, hall (n, t) List.mem_cons_self]
          exact termsShape_common fun q hq => hall q (by simp [hq])⟩, .sum sh hne (fun q hq => (ih q hq (h1 q hq)).2) hall⟩
    | net e _ _ => unfold ofTN at e; rw [e] at hu; cases hu
    | _ => cases hu
  | @net d tn u e ho hN hT hF hV hL _ ih =>
    subst e
    intro h
    rw [definite_net_iff] at h
    have hdim : ∀ e ∈ tn.edges.keys, ∃ d, tn.edim e = some d := by
      intro e he
      obtain ⟨⟨n, r⟩, hp, hl⟩ := hL e he
      have hr := Dict.get?_of_mem ho.cons.nodes_nodup hp
      obtain ⟨t, a, b, c⟩ := h n r hr
      obtain ⟨⟨sh, hsh⟩, -⟩ := ih n r t hr a c
      rw [hsh] at b
      have hm : tn.edim e ∈ r.legs.map tn.edim := List.mem_map.2 ⟨e, hl, rfl⟩
      rw [← Option.some.inj b] at hm
      obtain ⟨d, -, hd⟩ := List.mem_map.1 hm
      exact ⟨d, hd.symm⟩
    have hsolid : ∀ n r t, tn.nodes.get? n = some r → r.ten = some t → Solid d t := by
      intro n r t hr ht
      obtain ⟨t', a, -, c⟩ := h n r hr
      rw [ht] at a; cases a
      exact (ih n r t hr ht c).2
    have hfit : ∀ n r, tn.nodes.get? n = some r → ∃ t, r.ten = some t ∧ t.shape = some (r.legs.map tn.edim) := by
      intro n r hr
      obtain ⟨t, a, b, -⟩ := h n r hr
      exact ⟨t, a, b⟩
    refine ⟨?_, .net rfl ⟨ho.cons, ?_, hN, ?_⟩ hF (fun e he => .inl (hL e he)) hT hfit hsolid⟩
    · obtain ⟨sh, hsh⟩ := map_some_of (l := tn.openE.map tn.edim) (by
        intro x hx
        obtain ⟨e, he, rfl⟩ := List.mem_map.1 hx
        exact hdim e (ho.cons.open_exist e he))
      refine ⟨sh, ?_⟩
      rw [← hsh]
      unfold ofTN
      rw [shape]
      unfold TN.shape?
      have hl := ho.cons.open_exist
      show List.mapM _ tn.openE = some (tn.openE.map tn.edim)
      generalize tn.openE = l at hl
      induction l with
      | nil => rfl
      | cons e l ih =>
        obtain ⟨q, hq⟩ := Dict.exists_get? (hl e (by simp))
        rw [List.mapM_cons, ih fun e he => hl e (by simp [he])]
        simp [TN.edim, hq]
    · intro e q hq
      obtain ⟨d, hd⟩ := hdim e (Dict.mem_keys_of_get? hq)
      have hd : q.dim = some d := by simpa [TN.edim, hq] using hd
      exact ⟨d, hd, fun f hf => hV e q f d hq hf hd⟩
    · intro n r hr
      obtain ⟨t, a, b⟩ := hfit n r hr
      have hs := hsolid n r t hr a
      refine ⟨t, a, fun v hv => ?_, fun s hs' => ?_⟩
      · subst hv
        generalize hu : TVal.view v = w at hs
        cases hs with
        | net e _ _ _ _ _ _ => unfold ofTN at e; rw [e] at hu; cases hu
        | _ => cases hu
      · cases hs with
        | ten a => unfold ofTN at hs'; cases hs'
        | sum _ _ _ _ => unfold ofTN at hs'; cases hs'
        | net e hx _ _ _ _ _ =>
          cases eq_of_ofTN (hs'.symm.trans e)
          refine ⟨hx, ?_⟩
          rw [hs'] at b
          unfold ofTN at b
          rw [shape] at b
          exact b

variable [CommSemiring R] [StarRing R] {L : Type} [AddCommMonoid L]

/-- **C78**: a sturdy tensor that says it is ready has a definite shape, and `contract` returns its array.

Full statement: for every object for which `is_ready` is True.  It fails for bare wires (`c78_wire_violated`) and for empty
sums (`c78_empty_sum_violated`). -/
theorem c78_contract_partial {B0 B : Backend L R} (h0 : B0.Sound) (hR0 : B0.Reliable) (hB : B.Sound) (hR : B.Reliable)
    {d k : Nat} {t : TVal R} (hr : isReady t = some true) (ht : Sturdy d t) (hk : d ≤ k) :
    ∃ sh r, t.shape = some (sh.map some) ∧ contract B0 k B t = some r ∧ r.shape = sh ∧
      ∀ idx, InRange sh idx → r.get idx = t.tot idx := by
  obtain ⟨b, h1, h2⟩ := c78_is_ready_partial ht.tidy
  rw [hr] at h1; cases h1
  obtain ⟨⟨sh, hsh⟩, hs⟩ := ht.solid (h2.1 rfl)
  obtain ⟨r, a1, a2, a3⟩ := solid_contract h0 hR0 hB hR hsh hs hk
  exact ⟨sh, r, hsh, a1, a2, a3⟩

/-! ## The hypotheses are met, and what fails without them -/

/-- The edits that make a product of two matrices, the first of which may be missing. -/
def readyOps (a : Option (Arr R)) : List (Op (TVal R)) :=
  [.addNode (some (.str "a")) .nil (some [.str "i", .str "j"]) (.ten a) false,
   .addNode (some (.str "b")) .nil (some [.str "j", .str "k"]) (arrVal [3, 4] fun _ => 1) false,
   .openEdge (.str "i") none, .openEdge (.str "k") none]

/-- The product of two matrices, if the first is given. -/
def readyNet (a : Option (Arr R)) (d : Option Nat) : TN (TVal R) where
  nodes := [(.str "a", { legs := [.str "i", .str "j"], ten := some (.ten a) }),
    (.str "b", { legs := [.str "j", .str "k"], ten := some (arrVal [3, 4] fun _ => 1) })]
  edges := [(.str "i", { dim := d }), (.str "j", { dim := some 3 }), (.str "k", { dim := some 4 })]
  adj := [(.str "a", .str "i"), (.str "a", .str "j"), (.str "b", .str "j"), (.str "b", .str "k")]
  openE := [.str "i", .str "k"]

omit [StarRing R] in
theorem readyNet_run (f : List Nat → R) : TN.run {} (readyOps (some ⟨[2, 3], f⟩)) = some (readyNet (some ⟨[2, 3], f⟩) (some 2)) := rfl

omit [StarRing R] in
theorem readyNet_run' : TN.run {} (readyOps (none : Option (Arr R))) = some (readyNet none none) := rfl

omit [CommSemiring R] [StarRing R] in
theorem orderly_empty : TN.Orderly ({} : TN (TVal R)) :=
  ⟨TN.Consistent.empty, (by intro n r h; cases h), (by intro n r h; cases h)⟩

omit [StarRing R] in
theorem readyNet_orderly {a : Option (Arr R)} {d : Option Nat} (h : TN.run {} (readyOps a) = some (readyNet a d)) : (readyNet a d).Orderly :=
  orderly_run (ops := readyOps a) orderly_empty ⟨by simp [OrderlyOp], by simp [OrderlyOp], trivial, trivial, trivial⟩ h

omit [StarRing R] in
theorem readyNet_sturdy {a : Option (Arr R)} {d : Option Nat} (h : TN.run {} (readyOps a) = some (readyNet a d)) :
    Sturdy 1 (ofTN (readyNet a d)) := by
  have hk : ∀ n r t, (readyNet a d).nodes.get? n = some r → r.ten = some t → ∃ b, t = .ten b := by
    intro n r t hr ht
    have := Dict.mem_of_get? hr
    simp only [readyNet, List.mem_cons, List.not_mem_nil, or_false, Prod.mk.injEq] at this
    rcases this with ⟨rfl, rfl⟩ | ⟨rfl, rfl⟩
    · cases ht; exact ⟨_, rfl⟩
    · cases ht; exact ⟨_, rfl⟩
  have hn : ∀ {t : TVal R}, (∃ b, t = .ten b) → ¬ t.IsNet := by
    rintro t ⟨b, rfl⟩ ⟨s, hs⟩
    unfold ofTN at hs; cases hs
  refine .net rfl (readyNet_orderly h) ⟨?_, ?_, ?_, ?_, ?_, ?_⟩ ⟨?_, ?_, ?_⟩ ?_ ?_ ?_ ?_
  · show ∀ n ∈ [Nm.str "a", .str "b"], ∀ n' ∈ [Nm.str "a", .str "b"], _
    decide
  · show ∀ n ∈ [Nm.str "i", .str "j", .str "k"], ∀ n' ∈ [Nm.str "i", .str "j", .str "k"], _
    decide
  · show ∀ n ∈ [Nm.str "a", .str "b"], _
    decide
  · show ∀ n ∈ [Nm.str "i", .str "j", .str "k"], _
    decide
  · exact fun n r t h1 h2 h3 => (hn (hk n r t h1 h2) h3).elim
  · exact fun n r t h1 h2 h3 => (hn (hk n r t h1 h2) h3).elim
  · show ∀ n ∈ [Nm.str "a", .str "b"], _
    decide
  · show ∀ n ∈ [Nm.str "i", .str "j", .str "k"], _
    decide
  · exact fun n r t h1 h2 h3 => (hn (hk n r t h1 h2) h3).elim
  · intro e q f h1 h2
    have := Dict.mem_of_get? h1
    simp only [readyNet, List.mem_cons, List.not_mem_nil, or_false, Prod.mk.injEq] at this
    rcases this with ⟨rfl, rfl⟩ | ⟨rfl, rfl⟩ | ⟨rfl, rfl⟩ <;> cases h2
  · intro e q f d h1 h2
    have := Dict.mem_of_get? h1
    simp only [readyNet, List.mem_cons, List.not_mem_nil, or_false, Prod.mk.injEq] at this
    rcases this with ⟨rfl, rfl⟩ | ⟨rfl, rfl⟩ | ⟨rfl, rfl⟩ <;> cases h2
  · intro e he
    have he : e ∈ [Nm.str "i", .str "j", .str "k"] := he
    simp only [List.mem_cons, List.not_mem_nil, or_false] at he
    simp only [readyNet, List.mem_cons, List.not_mem_nil, or_false, exists_eq_or_imp, exists_eq_left]
    rcases he with rfl | rfl | rfl <;> simp
  · intro n r t h1 h2
    obtain ⟨b, rfl⟩ := hk n r t h1 h2
    exact .ten b

/-- The hypotheses of C78 are met: a network made by edits is sturdy and ready; without the data of one node it is sturdy
and not ready, and so are a sum and a view of it. -/
example (f : List Nat → R) : Sturdy 1 (ofTN (readyNet (some ⟨[2, 3], f⟩) (some 2))) ∧
    isReady (ofTN (readyNet (some ⟨[2, 3], f⟩) (some 2))) = some true ∧ Sturdy 1 (ofTN (readyNet (none : Option (Arr R)) none)) ∧
    isReady (ofTN (readyNet (none : Option (Arr R)) none)) = some false ∧
    Tidy (.view (.sum [(.int 0, ofTN (readyNet (none : Option (Arr R)) none)), (.int 1, .ten (some ⟨[2, 4], f⟩))])) ∧
    isReady (.view (.sum [(.int 0, ofTN (readyNet (none : Option (Arr R)) none)), (.int 1, .ten (some ⟨[2, 4], f⟩))])) = some false := by
  refine ⟨readyNet_sturdy (readyNet_run f), rfl, readyNet_sturdy readyNet_run', rfl, .view (.sum ?_), rfl⟩
  intro p hp
  simp only [List.mem_cons, List.not_mem_nil, or_false] at hp
  rcases hp with rfl | rfl
  · exact (readyNet_sturdy readyNet_run').tidy
  · exact .ten _

/-- The trace of a matrix: one node, both legs on the same edge. -/
def traceNet (f : List Nat → R) : TN (TVal R) where
  nodes := [(.str "a", { legs := [.str "i", .str "i"], ten := some (arrVal [2, 2] f) })]
  edges := [(.str "i", { dim := some 2 })]
  adj := [(.str "a", .str "i")]

omit [CommSemiring R] [StarRing R] in
/-- The full form of C78 fails: the trace of a matrix, made by `add_node`, is definite, but says that it is not ready. -/
theorem c78_repeated_leg_violated (f : List Nat → R) :
    TN.run {} [.addNode (some (.str "a")) .nil (some [.str "i", .str "i"]) (arrVal [2, 2] f) false] = some (traceNet f) ∧
    Definite (ofTN (traceNet f)) ∧ isReady (ofTN (traceNet f)) = some false := by
  refine ⟨rfl, definite_net_iff.2 fun n r hr => ?_, rfl⟩
  have := Dict.mem_of_get? hr
  simp only [traceNet, List.mem_cons, List.not_mem_nil, or_false, Prod.mk.injEq] at this
  obtain ⟨rfl, rfl⟩ := this
  exact ⟨_, rfl, rfl, .ten _⟩

omit [CommSemiring R] [StarRing R] in
/-- The full form of C78 fails: a bare open wire of unknown dimension says that it is ready, but has no definite shape. -/
theorem c78_wire_violated : ∃ tn : TN (TVal R), TN.run {} [.openEdge (.str "i") none] = some tn ∧
    isReady (ofTN tn) = some true ∧ (ofTN tn).shape = some [none] := ⟨_, rfl, rfl, rfl⟩

omit [CommSemiring R] [StarRing R] in
/-- The full form of C78 fails: a sum without terms says that it is ready, but has no shape (`contract` returns the number
`0`, not an array). -/
theorem c78_empty_sum_violated : isReady (.sum [] : TVal R) = some true ∧ (.sum [] : TVal R).shape = none := ⟨rfl, rfl⟩

end TVal

end Verif
