import Verif.Props.Nest
/-!
# The bound on the nesting depth does not matter
-/

set_option linter.unusedSectionVars false

namespace Verif

theorem mapM_agree {A B : Type} {f g : A → Except Err B} : ∀ {l : List A}, (∀ a ∈ l, f a = g a) → l.mapM f = l.mapM g
  | [], _ => rfl
  | a :: l, h => by rw [List.mapM_cons, List.mapM_cons, h a (by simp), mapM_agree fun a ha => h a (by simp [ha])]

namespace Circ

variable {R : Type} [CommSemiring R] {α : Type} {sh sh' : ShapeFn α}

theorem useAll_congr : ∀ {l : Circ α} {w : Wires}, (∀ p ∈ l, sh p.2.op = sh' p.2.op) → useAll sh l w = useAll sh' l w
  | [], _, _ => rfl
  | (n, r) :: l, w, h => by
    have e : sh r.op = sh' r.op := h (n, r) (by simp)
    rw [useAll, useAll, e]
    cases sh' r.op with
    | error e => rfl
    | ok s =>
      dsimp only
      cases useQubits r.time r.qubits s w with
      | error e => rfl
      | ok w' => exact useAll_congr fun p hp => h p (by simp [hp])

theorem shape_congr {c : Circ α} (h : ∀ p ∈ c, sh p.2.op = sh' p.2.op) : c.shape sh = c.shape sh' := by
  unfold shape
  rw [useAll_congr fun p hp => h p ((inOrder_perm c).mem_iff.1 hp)]

theorem shapeD_congr {a : α} (h : sh a = sh' a) : shapeD sh a = shapeD sh' a := by unfold shapeD; rw [h]

theorem wireWord_congr {l : Circ α} (h : ∀ p ∈ l, sh p.2.op = sh' p.2.op) (q : Int) : wireWord sh q l = wireWord sh' q l :=
  List.flatMap_congr fun p hp => by rw [shapeD_congr (h p hp)]

theorem circOuts_congr {c : Circ α} (h : ∀ p ∈ c, sh p.2.op = sh' p.2.op) : circOuts sh c = circOuts sh' c := by
  unfold circOuts
  refine List.filter_congr fun q _ => ?_
  rw [wireWord_congr fun p hp => h p ((timeSorted_perm c).mem_iff.1 hp)]

theorem circIns_congr {c : Circ α} (h : ∀ p ∈ c, sh p.2.op = sh' p.2.op) : circIns sh c = circIns sh' c := by
  unfold circIns
  refine List.filter_congr fun q _ => ?_
  rw [wireWord_congr fun p hp => h p ((timeSorted_perm c).mem_iff.1 hp)]

theorem acts_congr {ten ten' : α → List Nat → R} {l : Circ α} (h : ∀ p ∈ l, sh p.2.op = sh' p.2.op)
    (ht : ∀ p ∈ l, ten p.2.op = ten' p.2.op) : l.map (fun p => actOf sh ten p.2) = l.map fun p => actOf sh' ten' p.2 :=
  List.map_congr_left fun p hp => by unfold actOf; rw [shapeD_congr (h p hp), ht p hp]

theorem circMat_congr {ten ten' : α → List Nat → R} {c : Circ α} (h : ∀ p ∈ c, sh p.2.op = sh' p.2.op)
    (ht : ∀ p ∈ c, ten p.2.op = ten' p.2.op) : circMat sh ten c = circMat sh' ten' c := by
  funext idx
  unfold circMat
  rw [circOuts_congr h, circIns_congr h, acts_congr (fun p hp => h p ((timeSorted_perm c).mem_iff.1 hp))
    fun p hp => ht p ((timeSorted_perm c).mem_iff.1 hp)]

theorem circDens_congr {ten ten' : α → List Nat → R} {c : Circ α} (h : ∀ p ∈ c, sh p.2.op = sh' p.2.op)
    (ht : ∀ p ∈ c, ten p.2.op = ten' p.2.op) : circDens sh ten c = circDens sh' ten' c := by
  funext idx
  unfold circDens
  rw [circOuts_congr h, circIns_congr h, acts_congr (fun p hp => h p ((timeSorted_perm c).mem_iff.1 hp))
    fun p hp => ht p ((timeSorted_perm c).mem_iff.1 hp)]

theorem isPure_congr {τ : Type} {I I' : OpsIface α τ} {c : Circ α} (h : ∀ p ∈ c, I.shape p.2.op = I'.shape p.2.op)
    (hp : ∀ p ∈ c, I.pure p.2.op = I'.pure p.2.op) : isPure I c = isPure I' c := by
  unfold isPure isValid
  rw [shape_congr h, mapM_agree hp]

end Circ

namespace Oper

variable {R : Type} [CommSemiring R] [StarRing R] {ctr : TVal R → Except Err (Arr R)}

/-- The operation looks the same at two bounds of the depth. -/
structure SameAt (ctr : TVal R → Except Err (Arr R)) (n n' : Nat) (op : Oper R) : Prop where
  shape : (iface ctr n').shape op = (iface ctr n).shape op
  pure : (iface ctr n').pure op = (iface ctr n).pure op
  matrix : matrix ctr n' op = matrix ctr n op

theorem newSup_congr {I I' : OpsIface (Oper R) (TVal R)} {terms : List (R × Oper R)} (h : ∀ p ∈ terms, I'.shape p.2 = I.shape p.2)
    (hp : ∀ p ∈ terms, I'.pure p.2 = I.pure p.2) : newSup I' terms = newSup I terms := by
  cases terms with
  | nil => rfl
  | cons p terms =>
    obtain ⟨a, op⟩ := p
    rw [newSup, newSup]
    have e : I'.shape op = I.shape op := h (a, op) (by simp)
    rw [e]
    have : ∀ s0, ((a, op) :: terms).mapM (fun p => supCheck I' s0 p.2) = ((a, op) :: terms).mapM fun p => supCheck I s0 p.2 := fun s0 =>
      mapM_agree fun p hp' => by
        unfold supCheck
        rw [h p hp', hp p hp']
    simp only [this]

theorem built_succ : ∀ (n : Nat) {b : Bool} {op : Oper R}, Built ctr n b op → Built ctr (n + 1) b op ∧ SameAt ctr n (n + 1) op
  | 0, _, op, h => by cases op <;> exact absurd h (by simp [Built])
  | n + 1, _, .imm _ _, h => absurd h (by simp [Built])
  | n + 1, b, .pure p q, h => by
    rw [Built] at h
    exact ⟨by rw [Built]; exact h, rfl, rfl, rfl⟩
  | n + 1, b, .ctrl data s sa ov, h => by
    rw [Built] at h
    exact ⟨by rw [Built]; exact h, rfl, rfl, rfl⟩
  | n + 1, b, .circ c, h => by
    rw [Built] at h
    obtain ⟨h1, ⟨s, h2⟩, h3, h4⟩ := h
    have ih : ∀ p ∈ c, _ := fun p hp => built_succ n (h3 p hp).1
    have e := fun p hp => (ih p hp).2.shape
    refine ⟨?_, Circ.shape_congr e, Circ.isPure_congr e fun p hp => (ih p hp).2.pure, Circ.circMat_congr e fun p hp => (ih p hp).2.matrix⟩
    rw [Built]
    refine ⟨h1, ⟨s, (Circ.shape_congr e).trans h2⟩, fun p hp => ?_, h4⟩
    obtain ⟨-, k1, s', k2, k3⟩ := h3 p hp
    exact ⟨(ih p hp).1, k1, s', (e p hp).trans k2, k3⟩
  | n + 1, b, .cctrl c s cond, h => by
    rw [Built] at h
    obtain ⟨h1, ⟨s0, h2, h2'⟩, h3, h4⟩ := h
    have ih : ∀ p ∈ c, _ := fun p hp => built_succ n (h3 p hp).1
    have e := fun p hp => (ih p hp).2.shape
    refine ⟨?_, rfl, rfl, ?_⟩
    · rw [Built]
      refine ⟨h1, ⟨s0, (Circ.shape_congr e).trans h2, h2'⟩, fun p hp => ?_, h4⟩
      obtain ⟨-, k1, s', k2, k3⟩ := h3 p hp
      exact ⟨(ih p hp).1, k1, s', (e p hp).trans k2, k3⟩
    · show controlMat (circMat _ (matrix ctr (n + 1)) c) _ _ = controlMat (circMat _ (matrix ctr n) c) _ _
      rw [Circ.circMat_congr e fun p hp => (ih p hp).2.matrix, Circ.circOuts_congr e]
  | n + 1, b, .sup terms s, h => by
    rw [Built] at h
    obtain ⟨h1, h2, h3⟩ := h
    have ih : ∀ p ∈ terms, _ := fun p hp => built_succ n (h2 p hp)
    refine ⟨?_, rfl, rfl, ?_⟩
    · rw [Built]
      refine ⟨?_, fun p hp => (ih p hp).1, h3⟩
      rw [newSup_congr (fun p hp => (ih p hp).2.shape) fun p hp => (ih p hp).2.pure, h1]
    · funext idx
      show (terms.map fun p => p.1 * matrix ctr (n + 1) p.2 idx).sum = (terms.map fun p => p.1 * matrix ctr n p.2 idx).sum
      rw [List.map_congr_left fun p hp => by rw [(ih p hp).2.matrix]]

theorem dens_succ {k : Nat} : ∀ (n : Nat) {op : Oper R}, DensBuilt ctr k n op → DensBuilt ctr k (n + 1) op ∧
    (iface ctr (n + 1)).shape op = (iface ctr n).shape op ∧ densMatrix ctr (n + 1) op = densMatrix ctr n op
  | 0, op, h => by cases op <;> exact absurd h (by simp [DensBuilt])
  | n + 1, .imm _ _, h => by
    rw [DensBuilt] at h
    exact ⟨by rw [DensBuilt]; exact h, rfl, rfl⟩
  | n + 1, .pure p q, h => by
    rw [DensBuilt] at h
    exact ⟨by rw [DensBuilt]; exact ⟨(built_succ _ h.1).1, h.2⟩, rfl, rfl⟩
  | n + 1, .ctrl data s sa ov, h => by
    rw [DensBuilt] at h
    exact ⟨by rw [DensBuilt]; exact ⟨(built_succ _ h.1).1, h.2⟩, rfl, rfl⟩
  | n + 1, .cctrl c s cond, h => by
    rw [DensBuilt] at h
    obtain ⟨h1, h2⟩ := built_succ _ h
    refine ⟨by rw [DensBuilt]; exact h1, rfl, ?_⟩
    funext idx
    show pairMat (matrix ctr (n + 2) _) _ idx = pairMat (matrix ctr (n + 1) _) _ idx
    rw [h2.matrix]
  | n + 1, .circ c, h => by
    rw [DensBuilt] at h
    obtain ⟨h1, ⟨s, h2⟩, h3⟩ := h
    have ih : ∀ p ∈ c, _ := fun p hp => dens_succ n (h3 p hp).1
    have e := fun p hp => (ih p hp).2.1
    refine ⟨?_, Circ.shape_congr e, Circ.circDens_congr e fun p hp => (ih p hp).2.2⟩
    rw [DensBuilt]
    refine ⟨h1, ⟨s, (Circ.shape_congr e).trans h2⟩, fun p hp => ?_⟩
    obtain ⟨-, k1, s', k2, k3⟩ := h3 p hp
    exact ⟨(ih p hp).1, k1, s', (e p hp).trans k2, k3⟩
  | n + 1, .sup _ _, h => absurd h (by simp [DensBuilt])

end Oper

end Verif
