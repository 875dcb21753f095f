import Verif.Lemmas.Noise
import Verif.Props.Nest
/-!
# One operation behind another
-/

set_option linter.unusedSectionVars false

namespace Verif

section

variable {R : Type} [CommSemiring R]

/-- Two operations, each of which stands for a sequence. -/
theorem two_steps {A B : Act R} {FA FB : List Int} {SA SB : List (Act R)} (hA : Unfolds A FA SA) (hB : Unfolds B FB SB) {P : List Int}
    {Ψ : (Int → Nat) → R} (hΨ : DependsOn Ψ P) (h1 : ∀ q ∈ FA, q ∉ P) (h2 : ∀ q ∈ FB, q ∉ A.after P) {u : Int → Nat} (hu : Good u) :
    evolve (SA ++ SB) Ψ u = B.apply (A.apply Ψ) u := by
  rw [hB _ _ (apply_dependsOn hΨ) h2 u hu, evolve_append]
  exact evolve_good (fun w hw => (hA P Ψ hΨ h1 w hw).symm) hu

theorem mem_after_twice {A : Act R} {P : List Int} {k : Int} : k ∈ A.twice.after (twice P) ↔ k / 2 ∈ A.after P := by
  rw [mem_after, mem_after]
  have hi : k ∈ A.twice.ins ↔ k / 2 ∈ A.ins := mem_twice
  have ho : k ∈ A.twice.outs ↔ k / 2 ∈ A.outs := mem_twice
  rw [hi, ho, mem_twice]

theorem two_steps_dens {A B : Act R} {FA FB : List Int} {SA SB : List (Act R)} (hA : Unfolds A.twice (twice FA) (SA.map Act.twice))
    (hB : Unfolds B.twice (twice FB) (SB.map Act.twice)) {P : List Int} (v v' : Int → Nat) (h1 : ∀ q ∈ FA, q ∉ P)
    (h2 : ∀ q ∈ FB, q ∉ A.after P) {u u' : Int → Nat} (hu : Good u) (hu' : Good u') :
    evolveDens (SA ++ SB) (basisDens P v v') u u' = B.applyDens (A.applyDens (basisDens P v v')) u u' := by
  have := two_steps hA hB (basisState_dependsOn (R := R) (twice P) (joinAsg v v')) (fun q hq hc => h1 _ (mem_twice.1 hq) (mem_twice.1 hc))
    (fun q hq hc => h2 _ (mem_twice.1 hq) (mem_after_twice.1 hc)) (joinAsg_good hu hu')
  rw [← List.map_append, basisState_twice, evolve_twice, Act.twice_apply, Act.twice_apply, splitDens_join, splitDens_join] at this
  exact this

end

namespace Circ

variable {α : Type} {sh : ShapeFn α}

theorem acts_bare {R : Type} (ten : α → List Nat → R) (l : Circ α) :
    l.map (fun p => actOf sh ten p.2) = (bare l).map fun p => actOf sh ten ⟨p.1, 0, p.2⟩ := by
  unfold bare; rw [List.map_map]; rfl

theorem word_bare (q : Int) (l : Circ α) : wireWord sh q l = (bare l).flatMap fun p => portsAt (shapeD sh p.1) p.2 q := by
  unfold bare wireWord; rw [List.flatMap_map]

/-- The circuit consists of the operations `L` in this order. -/
structure Joined (sh : ShapeFn α) (L c : Circ α) : Prop where
  keys : (Dict.keys c).Nodup
  fit : Fitting sh c
  stamped : Stamped c
  sorted : bare (timeSorted c) = bare L
  valid : (∀ q, Connectable (wireWord sh q L)) → ∃ s, c.shape sh = .ok s

section

variable {L c : Circ α} (h : Joined sh L c)

include h

theorem Joined.acts {R : Type} (ten : α → List Nat → R) :
    (timeSorted c).map (fun p => actOf sh ten p.2) = L.map fun p => actOf sh ten p.2 := by
  rw [acts_bare, h.sorted, ← acts_bare]

theorem Joined.word (q : Int) : wireWord sh q (timeSorted c) = wireWord sh q L := by
  rw [word_bare, h.sorted, ← word_bare]

theorem Joined.mem {p : Nm × OpRec α} (hp : p ∈ c) : ∃ p' ∈ L, p.2.op = p'.2.op ∧ p.2.qubits = p'.2.qubits := by
  have : (p.2.op, p.2.qubits) ∈ bare L := by
    rw [← h.sorted]
    exact List.mem_map.2 ⟨p, (timeSorted_perm c).mem_iff.2 hp, rfl⟩
  obtain ⟨p', hp', e⟩ := List.mem_map.1 this
  exact ⟨p', hp', (congrArg Prod.fst e).symm, (congrArg Prod.snd e).symm⟩

theorem Joined.qubits (q : Int) : q ∈ qubitsOf c ↔ ∃ p ∈ L, q ∈ p.2.qubits := by
  have key : ∀ l : Circ α, (∃ p ∈ l, q ∈ p.2.qubits) ↔ ∃ p ∈ bare l, q ∈ p.2 := fun l => by
    unfold bare; simp
  rw [mem_qubitsOf, key L, ← h.sorted, ← key]
  exact exists_congr fun p => and_congr_left fun _ => (timeSorted_perm c).mem_iff.symm

theorem Joined.valid_iff : (∃ s, c.shape sh = .ok s) ↔ ∀ q, Connectable (wireWord sh q L) := by
  refine ⟨fun ⟨s, hs⟩ q => ?_, h.valid⟩
  rw [← h.word]
  exact (wired_sorted h.fit hs).chain q

end

theorem joined_nil {L : Circ α} (hL : Fitting sh L) : ∃ c, appendAll sh [] L = .ok c ∧ Joined sh L c := by
  obtain ⟨c, he⟩ := extends_all (sh := sh) L [] (by simp [Dict.keys]) (fun p hp => by cases hp) (fun p hp => by intro h; cases h) hL
  refine ⟨c, he.app, he.keys, he.fit, he.stamped, ?_, fun hc => (extends_valid he hc).1⟩
  rw [he.sorted_bare]
  rfl

theorem joined_circ {d L : Circ α} {s : List (List Letter)} (hk : (Dict.keys d).Nodup) (hf : Fitting sh d) (hst : Stamped d)
    (hs : d.shape sh = .ok s) (hL : Fitting sh L) : ∃ c, appendAll sh d L = .ok c ∧ Joined sh (timeSorted d ++ L) c := by
  obtain ⟨c, he⟩ := extends_all (sh := sh) L d hk hf hst hL
  refine ⟨c, he.app, he.keys, he.fit, he.stamped, ?_, fun hc => he.shape ⟨s, hs⟩ hf fun q => ?_⟩
  · rw [he.sorted_bare]
    unfold bare
    rw [List.map_append]
  · have := hc q
    unfold wireWord at this ⊢
    rwa [List.flatMap_append] at this

end Circ

namespace Oper

variable {R : Type} [CommSemiring R] [StarRing R] {ctr : TVal R → Except Err (Arr R)}

/-- The names of the qubits of an operand of `|`: those of a circuit if they are kept, otherwise 0, 1, …. -/
def names (keep : Bool) (op : Oper R) (m : Nat) : List Int :=
  match keep, op with
  | true, .circ d => qubitsOf d
  | _, _ => rangeQubits 0 m

/-- Whether the operation is a `Circuit`. -/
def isCirc : Oper R → Bool
  | .circ _ => true
  | _ => false

/-- The operations `L` are what the operation `op` adds to a circuit that it is appended to; they do what it does. -/
structure Adds (sh : Circ.ShapeFn (Oper R)) (ok : Oper R → Prop) (s : List (List Letter)) (qs : List Int) (L : Circ (Oper R)) : Prop where
  fit : Fitting sh L
  ok : ∀ p ∈ L, ok p.2.op
  qubits : ∀ q, (∃ p ∈ L, q ∈ p.2.qubits) ↔ q ∈ qs
  like : (∀ q, Connectable (portsAt s qs q)) → ∀ q, Like (portsAt s qs q) (wireWord sh q L)
  like' : (∀ q, Connectable (wireWord sh q L)) → ∀ q, Like (wireWord sh q L) (portsAt s qs q)

theorem adds_self {sh : Circ.ShapeFn (Oper R)} {ok : Oper R → Prop} {op : Oper R} {s : List (List Letter)} (hd : ok op) (hs : sh op = .ok s) {qs : List Int}
    (hn : qs.Nodup) (hl : qs.length = s.length) : Adds sh ok s qs [entry op qs] := by
  have hsd : shapeD sh op = s := by simp [shapeD, hs]
  have hw : ∀ q, wireWord sh q [entry op qs] = portsAt s qs q := fun q => by
    show portsAt (shapeD sh op) _ q ++ [] = _
    rw [hsd, List.append_nil]
    rfl
  refine ⟨fun p hp => ?_, fun p hp => ?_, fun q => by simp [entry], fun _ q => by rw [hw]; exact Like.refl _, fun _ q => by rw [hw]; exact Like.refl _⟩
  · obtain rfl := List.mem_singleton.1 hp
    exact ⟨s, hs, hl.symm, hn⟩
  · obtain rfl := List.mem_singleton.1 hp
    exact hd

theorem adds_circ {sh : Circ.ShapeFn (Oper R)} {ok : Oper R → Prop} {d : Circ (Oper R)} {s : List (List Letter)} (hd : ∀ p ∈ d, ok p.2.op)
    (hf : Fitting sh d) (hs : d.shape sh = .ok s) : Adds sh ok s (qubitsOf d) (timeSorted d) := by
  have hp : ∀ q, portsAt s (qubitsOf d) q = (endsWord (wireWord sh q (timeSorted d))).flatMap Letter.ports := fun q =>
    Circ.outer_ports hf hs (π := id) Function.injective_id (by rw [List.map_id]) q
  have hc := (Circ.wired_sorted hf hs).chain
  refine ⟨fun p hp => hf p ((Circ.timeSorted_perm d).mem_iff.1 hp), fun p hp => hd p ((Circ.timeSorted_perm d).mem_iff.1 hp), fun q => ?_,
    fun _ q => ?_, fun _ q => ?_⟩
  · rw [Circ.mem_qubitsOf]
    exact exists_congr fun p => and_congr_left fun _ => (Circ.timeSorted_perm d).mem_iff
  · rw [hp]
    have := like_ends (w := wireWord sh q (timeSorted d)) rfl rfl
    exact ⟨this.head.symm, this.last.symm, fun _ => hc q⟩
  · rw [hp]
    exact like_ends rfl rfl

/-- What the proofs about `|` and `*` need to know about pure operations and about operations on density matrices. -/
structure Kind (ctr : TVal R → Except Err (Arr R)) (ok : Nat → Oper R → Prop) (ten : Nat → Oper R → List Nat → R)
    (U : Act R → List Int → List (Act R) → Prop) : Prop where
  zero : ∀ op, ¬ ok 0 op
  circ : ∀ n c, ok (n + 1) (.circ c) ↔ (Dict.keys c).Nodup ∧ (∃ s, Circ.shape (shapes ctr n) c = .ok s) ∧
    ∀ p ∈ c, ok n p.2.op ∧ p.2.qubits.Nodup ∧ ∃ s, shapes ctr n p.2.op = .ok s ∧ s.length = p.2.qubits.length
  succ : ∀ n op, ok n op → ok (n + 1) op ∧ shapes ctr (n + 1) op = shapes ctr n op ∧ ten (n + 1) op = ten n op
  self : ∀ p F, U p F [p]
  inner : ∀ n c s, Fitting (shapes ctr n) c → Circ.shape (shapes ctr n) c = .ok s →
    U ⟨ten (n + 1) (.circ c), inQubits s (qubitsOf c), outQubits s (qubitsOf c)⟩ (freshQubits s (qubitsOf c))
      ((timeSorted c).map fun p => actOf (shapes ctr n) (ten n) p.2)

theorem kind_pure : Kind ctr (fun n op => Built ctr n false op) (matrix ctr) Unfolds where
  zero op h := by cases op <;> exact absurd h (by simp [Built])
  circ n c := by rw [Built]; simp [shapes]
  succ n op h := ⟨(built_succ n h).1, (built_succ n h).2.shape, (built_succ n h).2.matrix⟩
  self := single_unfolds
  inner n c s hf hs := by
    have key := Circ.unfolds_circ (ten := matrix ctr n) hf hs Function.injective_id (qs := qubitsOf c) (by rw [List.map_id])
      (S := fun op qs => [⟨matrix ctr n op, inQubits (shapeD (shapes ctr n) op) qs, outQubits (shapeD (shapes ctr n) op) qs⟩])
      fun p _ qs' _ _ => single_unfolds _ _
    rw [renamed_id, ← List.map_eq_flatMap] at key
    exact key

theorem kind_dens (k : Nat) : Kind ctr (fun n op => DensBuilt ctr k n op) (densMatrix ctr)
    (fun p F S => Unfolds p.twice (twice F) (S.map Act.twice)) where
  zero op h := by cases op <;> exact absurd h (by simp [DensBuilt])
  circ n c := by rw [DensBuilt]
  succ n op h := dens_succ n h
  self p F := single_unfolds _ _
  inner n c s hf hs := by
    have key := Circ.unfolds_circDens (ten := densMatrix ctr n) hf hs Function.injective_id (qs := qubitsOf c) (by rw [List.map_id])
      (S := fun op qs => [⟨densMatrix ctr n op, inQubits (shapeD (shapes ctr n) op) qs, outQubits (shapeD (shapes ctr n) op) qs⟩])
      fun p _ qs' _ _ => single_unfolds _ _
    rw [renamed_id, ← List.map_eq_flatMap] at key
    exact key

/-- What an operand of `|` contributes. -/
def parts (keep : Bool) (op : Oper R) (m : Nat) : Circ (Oper R) :=
  match keep, op with
  | true, .circ d => timeSorted d
  | _, op => [entry op (rangeQubits 0 m)]

section

variable {ok : Nat → Oper R → Prop} {ten : Nat → Oper R → List Nat → R} {U : Act R → List Int → List (Act R) → Prop} (H : Kind ctr ok ten U)

include H

/-- The operations of a circuit, seen one level higher. -/
theorem Kind.lift {n : Nat} {d : Circ (Oper R)} {s : List (List Letter)} (ho : ok (n + 1) (.circ d)) (hs : shapes ctr (n + 1) (.circ d) = .ok s) :
    (Dict.keys d).Nodup ∧ Fitting (shapes ctr (n + 1)) d ∧ Circ.shape (shapes ctr (n + 1)) d = .ok s ∧ (∀ p ∈ d, ok (n + 1) p.2.op) ∧
      U ⟨ten (n + 1) (.circ d), inQubits s (qubitsOf d), outQubits s (qubitsOf d)⟩ (freshQubits s (qubitsOf d))
        ((timeSorted d).map fun p => actOf (shapes ctr (n + 1)) (ten (n + 1)) p.2) := by
  obtain ⟨h1, -, h3⟩ := (H.circ n d).1 ho
  have hs : Circ.shape (shapes ctr n) d = .ok s := hs
  have hsh : ∀ p ∈ d, shapes ctr (n + 1) p.2.op = shapes ctr n p.2.op := fun p hp => (H.succ n _ (h3 p hp).1).2.1
  have hf : Fitting (shapes ctr n) d := fun p hp => by
    obtain ⟨-, h2, s, h4, h5⟩ := h3 p hp
    exact ⟨s, h4, h5, h2⟩
  refine ⟨h1, fun p hp => ?_, by rw [Circ.shape_congr hsh]; exact hs, fun p hp => (H.succ n _ (h3 p hp).1).1, ?_⟩
  · obtain ⟨s', k1, k2⟩ := hf p hp
    exact ⟨s', (hsh p hp).trans k1, k2⟩
  · rw [Circ.acts_congr (fun p hp => hsh p ((Circ.timeSorted_perm d).mem_iff.1 hp)) fun p hp =>
      (H.succ n _ (h3 p ((Circ.timeSorted_perm d).mem_iff.1 hp)).1).2.2]
    exact H.inner n d s hf hs

theorem Kind.single {n : Nat} {op : Oper R} {s : List (List Letter)} {qs : List Int} (hs : shapes ctr n op = .ok s) :
    U ⟨ten n op, inQubits s qs, outQubits s qs⟩ (freshQubits s qs) ([entry op qs].map fun p => actOf (shapes ctr n) (ten n) p.2) := by
  have hsd : shapeD (shapes ctr n) op = s := by simp [shapeD, hs]
  have : actOf (shapes ctr n) (ten n) (entry op qs).2 = ⟨ten n op, inQubits s qs, outQubits s qs⟩ := by
    show Act.mk _ (inQubits (shapeD (shapes ctr n) op) _) (outQubits (shapeD (shapes ctr n) op) _) = _
    rw [hsd]
    rfl
  rw [List.map_singleton, this]
  exact H.self _ _

/-- An operand of `|`. -/
theorem Kind.operand {n : Nat} {op : Oper R} {s : List (List Letter)} (ho : ok n op) (hs : shapes ctr n op = .ok s) (keep : Bool) :
    Adds (shapes ctr n) (ok n) s (names keep op s.length) (parts keep op s.length) ∧
      U ⟨ten n op, inQubits s (names keep op s.length), outQubits s (names keep op s.length)⟩ (freshQubits s (names keep op s.length))
        ((parts keep op s.length).map fun p => actOf (shapes ctr n) (ten n) p.2) := by
  have hself : Adds (shapes ctr n) (ok n) s (rangeQubits 0 s.length) [entry op (rangeQubits 0 s.length)] :=
    adds_self ho hs (rangeQubits_nodup _) (rangeQubits_length _)
  cases keep with
  | false => exact ⟨hself, H.single hs⟩
  | true =>
    cases op with
    | circ d =>
      cases n with
      | zero => exact absurd ho (H.zero _)
      | succ n =>
        obtain ⟨-, h2, h3, h4, h5⟩ := H.lift ho hs
        exact ⟨adds_circ h4 h2 h3, h5⟩
    | _ => exact ⟨hself, H.single hs⟩

/-- What `a | b` consists of. -/
theorem Kind.or_joined {n : Nat} {a b : Oper R} {sa sb : List (List Letter)} (ha : ok n a) (hb : ok n b) (hsa : shapes ctr n a = .ok sa)
    (hsb : shapes ctr n b = .ok sb) (hst : ∀ d, a = .circ d → Circ.Stamped d) :
    ∃ c, orOper (shapes ctr n) a b = .ok c ∧ Circ.Joined (shapes ctr n) (parts true a sa.length ++ parts (isCirc a) b sb.length) c := by
  have hB := (H.operand hb hsb (isCirc a)).1
  have one : ∀ (c : Circ (Oper R)) (op : Oper R) (s : List (List Letter)), shapes ctr n op = .ok s →
      appendOper (shapes ctr n) c op = Circ.appendAll (shapes ctr n) c [entry op (rangeQubits 0 s.length)] := fun c op s hs => by
    rw [appendOper, hs, entry, Circ.appendAll_one]
  have other : (∀ d, a ≠ .circ d) → orOper (shapes ctr n) a b = Circ.appendAll (shapes ctr n) []
      ([entry a (rangeQubits 0 sa.length)] ++ [entry b (rangeQubits 0 sb.length)]) := fun hn => by
    rw [Circ.appendAll_append, ← one _ _ _ hsa]
    have : orOper (shapes ctr n) a b = match appendOper (shapes ctr n) [] a with
        | .error e => .error e
        | .ok c => appendOper (shapes ctr n) c b := by
      cases a with
      | circ d => exact absurd rfl (hn d)
      | _ => rfl
    rw [this]
    cases appendOper (shapes ctr n) [] a with
    | error e => rfl
    | ok c => exact one _ _ _ hsb
  cases a with
  | circ d =>
    cases n with
    | zero => exact absurd ha (H.zero _)
    | succ n =>
      obtain ⟨h1, h2, h3, -⟩ := H.lift ha hsa
      obtain ⟨c, k1, k2⟩ := Circ.joined_circ h1 h2 (hst d rfl) h3 hB.fit
      refine ⟨c, ?_, k2⟩
      rw [← k1]
      have hcp := Circ.c39_copy h1 h2
      cases b with
      | circ d' =>
        show Circ.orCirc _ d d' = Circ.appendAll _ d (timeSorted d')
        unfold Circ.orCirc
        rw [hcp, Circ.inOrder_timeSorted]
      | _ =>
        rw [orOper, hcp]
        · exact one _ _ _ hsb
        · simp
  | _ =>
    have hA := (H.operand ha hsa true).1
    obtain ⟨c, k1, k2⟩ := Circ.joined_nil (sh := shapes ctr n) (L := parts true _ sa.length ++ parts false b sb.length) fun p hp =>
      (List.mem_append.1 hp).elim (hA.fit p) (hB.fit p)
    refine ⟨c, ?_, k2⟩
    rw [other (by simp), ← k1]
    rfl

end

end Oper

end Verif
