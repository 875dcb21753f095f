import Verif.Spec.ContractFull
import Verif.Props.Contract
import Verif.Props.Expand
/-!
# C01 for nested objects: `contract` computes the tensor
-/

set_option linter.unusedSectionVars false

namespace Verif

variable {R : Type} [CommSemiring R] [Star R] {L : Type} [AddCommMonoid L]

theorem mergeDims_self (sh : List Nat) : TVal.mergeDims (sh.map some) (sh.map some) = some (sh.map some) := by
  induction sh with
  | nil => rfl
  | cons d sh ih => simp [TVal.mergeDims, ih]

theorem termsShape_common {sh : List Nat} : ∀ {ts : List (Nm × TVal R)}, (∀ p ∈ ts, p.2.shape = some (sh.map some)) →
    TVal.termsShape ts (some (sh.map some)) = some (sh.map some)
  | [], _ => by simp only [TVal.termsShape]
  | (n, t) :: ts, h => by
    simp only [TVal.termsShape, h (n, t) List.mem_cons_self, mergeDims_self]
    exact termsShape_common fun p hp => h p (List.mem_cons_of_mem _ hp)

namespace TVal

theorem leaf_hereditary (Q : TVal R → Prop) : Hereditary (R := R) fun t =>
    (∀ s : TN (TVal R), t = ofTN s → ∀ u, Leaf s u → Q u) ∧ (¬ t.IsNet → Q t) where
  node := fun tn h n r t hr ht => by
    refine ⟨fun s hs u hu => h.1 tn rfl u (.deep hr (hs ▸ ht) hu), fun hi => h.1 tn rfl t (.here hr ht hi)⟩
  count := fun tn c h => by
    refine ⟨fun s hs u hu => h.1 tn rfl u ?_, fun hi => absurd ⟨_, rfl⟩ hi⟩
    have e : s.nodes = tn.nodes := by cases s; cases hs; rfl
    cases hu with
    | here h1 h2 h3 => exact .here (e ▸ h1) h2 h3
    | deep h1 h2 h3 => exact .deep (e ▸ h1) h2 h3

theorem mapM_arrs {f : TVal R → Option (Arr R)} {sh : List Nat} : ∀ {ts : List (Nm × TVal R)},
    (∀ p ∈ ts, ∃ a : Arr R, f p.2 = some a ∧ a.shape = sh ∧ ∀ idx, InRange sh idx → a.get idx = p.2.val idx) →
    ∃ as, (ts.mapM fun p => f p.2) = some as ∧ as.length = ts.length ∧ (∀ a ∈ as, a.shape = sh) ∧
      ∀ idx, InRange sh idx → (as.map fun a => a.get idx).sum = valSum ts idx
  | [], _ => ⟨[], rfl, rfl, by simp, fun idx _ => by rw [valSum]; rfl⟩
  | (n, t) :: ts, h => by
    obtain ⟨a, h1, h2, h3⟩ := h (n, t) List.mem_cons_self
    obtain ⟨as, g1, g2, g3, g4⟩ := mapM_arrs (f := f) (ts := ts) fun p hp => h p (List.mem_cons_of_mem _ hp)
    refine ⟨a :: as, ?_, by simp [g2], ?_, fun idx hi => ?_⟩
    · rw [List.mapM_cons, g1]
      have h1 : f t = some a := h1
      rw [h1]; rfl
    · intro b hb
      rcases List.mem_cons.1 hb with rfl | hb
      · exact h2
      · exact g3 b hb
    · rw [valSum, ← g4 idx hi, List.map_cons, List.sum_cons, h3 idx hi]

/-- A flattened network with names that do not clash can be completed. -/
theorem Run.completable {v : TVal R → List Nat → R} {tn tn' : TN (TVal R)} (b2 : Run tn [] tn') (hf : Fit (ofTN tn))
    {f : TVal R → Option (Arr R)} (hleaf : ∀ t, Leaf tn t → Contracts f v t) (harr : ∀ a, f (.ten (some a)) = some a)
    (hclean : ClearNames tn') : CompletableFor v f tn' := by
  have a2 := b2.cons
  have hready : tn'.Ready := by
    refine ⟨fun n r hr => ?_, fun e he => ?_⟩
    · obtain ⟨t, h1, h2⟩ := b2.fits hf n r hr
      have : ∃ sh : List Nat, r.legs.map tn'.edim = sh.map some := by
        have hl := a2.legs_exist n r hr
        generalize r.legs = l at hl
        induction l with
        | nil => exact ⟨[], rfl⟩
        | cons e l ih =>
          obtain ⟨sh, ih⟩ := ih fun e' he' => hl e' (List.mem_cons_of_mem _ he')
          obtain ⟨er, her⟩ := Dict.exists_get? (hl e List.mem_cons_self)
          obtain ⟨d, hd, _⟩ := b2.sized e er her
          refine ⟨d :: sh, ?_⟩
          rw [List.map_cons, ih]
          simp [TN.edim, her, hd]
      obtain ⟨sh, hsh⟩ := this
      refine ⟨t, sh, h1, by rw [← hsh]; exact h2, by simpa using (congrArg List.length hsh).symm, fun i e he => ?_⟩
      obtain ⟨er, her⟩ := Dict.exists_get? (a2.legs_exist n r hr e (List.mem_of_getElem? he))
      refine ⟨er, her, ?_⟩
      have := congrArg (·[i]?) hsh
      simp only [List.getElem?_map, he, Option.map_some, TN.edim, her, Option.bind_some] at this
      cases hs : sh[i]? with
      | none => rw [hs] at this; simp at this
      | some d => rw [hs] at this; simpa using this
    · obtain ⟨er, her⟩ := Dict.exists_get? (a2.open_exist e he)
      obtain ⟨d, hd, _⟩ := b2.sized e er her
      exact ⟨er, d, her, hd⟩
  have hdims : tn'.DimsKnown := by
    intro e he
    have : e ∈ tn'.edges.keys := by
      rcases he with ⟨n, r, hr, h⟩ | h
      · exact a2.legs_exist n r hr e h
      · exact a2.open_exist e h
    obtain ⟨er, her⟩ := Dict.exists_get? this
    obtain ⟨d, hd, hd'⟩ := b2.sized e er her
    exact ⟨er, d, her, hd, hd'⟩
  refine ⟨a2, hdims, hready, hclean.fresh, hclean.nodeFresh, hclean.noStar, fun n r t hr htn => ?_, harr⟩
  obtain ⟨t', h1, h2, _⟩ := b2.done n r hr (by simp)
  rw [htn] at h1; cases h1
  exact (b2.leaf _ (leaf_hereditary (Contracts f v)) ⟨fun s hs u hu => hleaf u (by
    have : s = tn := by cases s; cases tn; cases hs; rfl
    exact this ▸ hu), fun hi => absurd ⟨tn, rfl⟩ hi⟩ n r t hr htn).2 h2

/-- A flattened network with clean names can be completed. -/
theorem completable_expand {G : TN.Glue} (hG : G.Sound) {k : Nat} {tn tn' : TN (TVal R)} (hx : Expandable k tn)
    (hf : Fit (ofTN tn)) {f : TVal R → Option (Arr R)} (hleaf : ∀ t, Leaf tn t → Contracts f val t)
    (harr : ∀ a, f (.ten (some a)) = some a) (he : expand G k tn = (tn', .ok ())) (hclean : Clean tn') :
    Completable f tn' := by
  obtain ⟨tn1, b1, b2⟩ := expand_run hG k hx
  have e1 : tn1 = tn' := by rw [b1] at he; exact (Prod.mk.inj he).1
  rw [e1] at b2
  exact b2.completable hf hleaf harr ⟨hclean.fresh, hclean.nodeFresh, hclean.noStar⟩

/-- C01 with `expand`, for one network: `contract` of a nested network, its nodes evaluated by `f`. -/
theorem contract_net {G : TN.Glue} (hG : G.Sound) {k : Nat} {tn : TN (TVal R)} (hx : Expandable k tn) (ht : Tight (ofTN tn))
    (hf : Fit (ofTN tn)) {f : TVal R → Option (Arr R)} (hleaf : ∀ t, Leaf tn t → Contracts f val t)
    (harr : ∀ a, f (.ten (some a)) = some a) {B : Backend L R} (hB : B.Sound)
    (hcl : ∀ tn', expand G k tn = (tn', .ok ()) → Clean tn' ∧ B.Works tn') :
    ∃ tn' r, expand G k tn = (tn', .ok ()) ∧
      tn'.contractWith f B.memory B.finder B.srt B.engine B.ex = .ok r ∧ Represents val tn r := by
  obtain ⟨tn', a1, a2, a3, a4, a5⟩ := c17_expand_partial hG hx ht
  obtain ⟨hclean, hworks⟩ := hcl tn' a1
  have hC := completable_expand hG hx hf hleaf harr a1 hclean
  obtain ⟨r, c1, c2, c3⟩ := c01_contract_partial hB.engine hB.srt hC hclean.fix hworks
  exact ⟨tn', r, a1, c1, by rw [← a3]; exact c2, fun idx hi => by rw [c3 idx hi, a5]⟩

theorem contract_ten (B0 : Backend L R) (k : Nat) (B : Backend L R) (a : Arr R) :
    contract B0 k B (.ten (some a)) = some a := by
  rw [contract]

/-- C01 for arbitrarily nested tensors, views, sums and networks: `contract` returns an array with the shape and the
entries of the object.  Partial: as `c01_contract_partial` and `c17_expand_partial` for the networks. -/
theorem c01_nested_partial {B0 : Backend L R} (h0 : B0.Sound) : ∀ (k : Nat) {B : Backend L R}, B.Sound → ∀ {t : TVal R},
    Contractable B0 k B t → Contracts (contract B0 k B) val t
  | k, B, hB, .ten none, h => by rw [Contractable] at h; simp at h
  | k, B, hB, .ten (some a), _ => by
    intro sh hsh
    rw [shape_def, shape, Option.some.injEq] at hsh
    exact ⟨a, contract_ten B0 k B a, List.map_injective_iff.2 (Option.some_injective _) hsh, fun idx _ => by rw [val]⟩
  | 0, _, _, .view _, h => by rw [Contractable] at h; exact h.elim; simp
  | 0, _, _, .sum _, h => by rw [Contractable] at h; exact h.elim; simp
  | 0, _, _, .net _ _ _ _ _, h => by rw [Contractable] at h; exact h.elim; simp
  | k + 1, B, hB, .view t, h => by
    rw [Contractable] at h
    intro sh hsh
    rw [shape_def, shape] at hsh
    obtain ⟨a, h1, h2, h3⟩ := c01_nested_partial h0 k hB h sh hsh
    refine ⟨⟨a.shape, fun i => star (a.get i)⟩, by rw [contract, h1]; rfl, h2, fun idx hi => ?_⟩
    rw [val]
    show star (a.get idx) = _
    rw [h3 idx hi]
  | k + 1, B, hB, .sum ts, h => by
    rw [Contractable] at h
    obtain ⟨hne, hts, sh', hsh'⟩ := h
    intro sh hsh
    have he : sh = sh' := by
      rw [shape_def, shape] at hsh
      cases ts with
      | nil => exact absurd rfl hne
      | cons p ts =>
        obtain ⟨n, t⟩ := p
        simp only [termsShape, hsh' (n, t) List.mem_cons_self] at hsh
        rw [termsShape_common fun p hp => hsh' p (List.mem_cons_of_mem _ hp), Option.some.injEq] at hsh
        exact (List.map_injective_iff.2 (Option.some_injective _) hsh).symm
    subst he
    obtain ⟨as, g1, g2, g3, g4⟩ := mapM_arrs (f := contract B0 k B) (ts := ts) fun p hp =>
      c01_nested_partial h0 k hB (hts p hp) sh (hsh' p hp)
    cases as with
    | nil => cases ts with
      | nil => exact absurd rfl hne
      | cons p ts => simp at g2
    | cons a as =>
      have ha := g3 a List.mem_cons_self
      refine ⟨⟨a.shape, fun i => ((a :: as).map fun b => b.get i).sum⟩, ?_, ha, fun idx hi => ?_⟩
      · rw [contract, g1]
        show plusArrs (a :: as) = _
        rw [plusArrs, if_pos fun b hb => (g3 b (List.mem_cons_of_mem _ hb)).trans ha.symm]
      · rw [val]; exact g4 idx hi
  | k + 1, B, hB, .net ns es adj op c, h => by
    rw [Contractable] at h
    obtain ⟨h1, h2, h3, h4, h5⟩ := h
    obtain ⟨tn', r, g1, g2, g3, g4⟩ := contract_net hB.glue h1 h2 h3
      (f := contract B0 k B0) (fun t ht => c01_nested_partial h0 k h0 (h4 t ht)) (contract_ten B0 k B0) hB h5
    intro sh hsh
    rw [shape_def, shape, g3, Option.some.injEq] at hsh
    refine ⟨r, ?_, List.map_injective_iff.2 (Option.some_injective _) hsh, fun idx hi => ?_⟩
    · rw [contract, g1]
      show (tn'.contractWith _ _ _ _ _ _).toOption = _
      rw [g2]; rfl
    · have e : (TVal.net ns es adj op c).val = (⟨ns, es, adj, op, c⟩ : TN (TVal R)).value val := val_ofTN ⟨ns, es, adj, op, c⟩
      rw [e]
      exact g4 idx (List.map_injective_iff.2 (Option.some_injective _) hsh ▸ hi)

/-- The default order finder works for a flattened network without nodes called `'#'` or `('#', i)`. -/
theorem default_works {B : Backend L R} (hB : B.Sound) {width : TN (TVal R) → List OrderStep → Nat}
    (hfd : B.finder = defaultFinder B.srt width) (hw : ∀ t o, width t o * 3 * 2 ^ 4 ≤ B.memory * 2 ^ 30)
    {tn : TN (TVal R)} {v : TVal R → List Nat → R} [ArrVal v] {f : TVal R → Option (Arr R)} (hC : CompletableFor v f tn) (h1 : .str "#" ∉ tn.nodes.keys)
    (h2 : ∀ j, Nm.pair (.str "#") (.int j) ∉ tn.nodes.keys) : B.Works tn := by
  intro tn' hd
  rw [hfd]
  refine ⟨_, rfl, ⟨?_, hw _ _⟩, sliceOK_nil⟩
  obtain ⟨tn2, h3, h4, _, _, _, _, _, _, _, h5, _⟩ := hC.complete
  rw [hd, Prod.mk.injEq] at h3
  obtain ⟨rfl, _⟩ := h3
  refine defaultOrder_ok h4 hB.srt (fun hc => ?_) (fun j hc => ?_)
  · rcases h5 _ hc with h | h | ⟨e, k, h⟩
    · exact h1 h
    · simp at h
    · simp [deltaNode, Nm.triple] at h
  · rcases h5 _ hc with h | h | ⟨e, k, h⟩
    · exact h2 j h
    · simp [Nm.pair] at h
    · simp [deltaNode, Nm.triple, Nm.pair] at h

end TVal

/-! ## A concrete case: the sum of an array and a network that holds a network -/

/-- Default settings, with simple library functions. -/
def exampleBackend : Backend Nat Nat where
  glue := stdGlue
  memory := 16
  finder := defaultFinder id fun _ _ => 0
  srt := id
  engine := plainEngine
  ex := fun _ => 1

theorem exampleBackend_sound : exampleBackend.Sound := ⟨stdGlue_sound, fun l => List.Perm.refl l, plainEngine_sound⟩

theorem expandOuter_leaf {t : TVal Nat} (h : TVal.Leaf expandOuter t) : ∃ a, t = .ten (some a) := by
  have inner : ∀ n r u, expandInner.nodes.get? n = some r → r.ten = some u → ∃ a, u = .ten (some a) := by
    intro n r u hr hu
    have hm := Dict.mem_of_get? hr
    simp only [expandInner, List.mem_cons, List.not_mem_nil, or_false, Prod.mk.injEq] at hm
    rcases hm with ⟨_, rfl⟩ | ⟨_, rfl⟩ <;> (cases hu; exact ⟨_, rfl⟩)
  have outer : ∀ n r u, expandOuter.nodes.get? n = some r → r.ten = some u →
      u = TVal.ofTN expandInner ∨ ∃ a, u = .ten (some a) := by
    intro n r u hr hu
    have hm := Dict.mem_of_get? hr
    simp only [expandOuter, List.mem_cons, List.not_mem_nil, or_false, Prod.mk.injEq] at hm
    rcases hm with ⟨_, rfl⟩ | ⟨_, rfl⟩
    · cases hu; exact Or.inl rfl
    · cases hu; exact Or.inr ⟨_, rfl⟩
  cases h with
  | here h1 h2 h3 =>
    rcases outer _ _ _ h1 h2 with rfl | h
    · exact absurd ⟨_, rfl⟩ h3
    · exact h
  | deep h1 h2 h3 =>
    rename_i s n r
    rcases outer _ _ _ h1 h2 with h | ⟨a, h⟩
    · have hs : s = expandInner := by cases s; cases h; rfl
      subst hs
      cases h3 with
      | here g1 g2 _ => exact inner _ _ _ g1 g2
      | deep g1 g2 _ =>
        obtain ⟨a, ha⟩ := inner _ _ _ g1 g2
        cases ha
    · cases h

theorem expandOuter_fit : TVal.Fit (TVal.ofTN expandOuter) := by
  simp only [TVal.ofTN, expandOuter, expandInner, TVal.Fit, TVal.FitNodes, arrVal]
  refine ⟨⟨rfl, ⟨rfl, trivial⟩, ⟨rfl, trivial⟩, trivial⟩, ⟨rfl, trivial⟩, trivial⟩

theorem expandOuter_contractable : TVal.Contractable exampleBackend 2 exampleBackend (TVal.ofTN expandOuter) := by
  show TVal.Contractable _ _ _ (.net _ _ _ _ _)
  rw [TVal.Contractable]
  refine ⟨expandOuter_expandable, expandOuter_tight, expandOuter_fit, fun t ht => ?_, fun tn' h => ?_⟩
  · obtain ⟨a, rfl⟩ := expandOuter_leaf ht
    rw [TVal.Contractable]; rfl
  · have hk : tn'.nodes.keys = [.int 6, .pair (.str "N") (.int 0), .pair (.str "N") (.int 1)] := by cases h; rfl
    have hke : tn'.edges.keys = [.int 0, .int 8, .pair (.str "N") (.int 1)] := by cases h; rfl
    have ho : tn'.openE = [.int 0] := by cases h; rfl
    have hcl : TVal.Clean tn' := by
      refine ⟨fun e he k _ hc => ?_, fun e he k hc => ?_, by rw [hk]; decide, closedFix_of_B (by cases h; rfl)⟩
      · rw [ho, List.mem_singleton] at he
        rw [hke] at hc
        subst he
        simp [deltaEdge, Nm.pair] at hc
      · rw [hk] at hc
        simp [deltaNode, Nm.triple, Nm.pair] at hc
    refine ⟨hcl, TVal.default_works exampleBackend_sound (f := arrContract) rfl (by intros; show 0 * 3 * 2 ^ 4 ≤ _; omega)
      (TVal.completable_expand stdGlue_sound expandOuter_expandable expandOuter_fit (fun t ht => ?_)
        (fun _ => rfl) h hcl) (by rw [hk]; decide) fun j hc => ?_⟩
    · obtain ⟨a, rfl⟩ := expandOuter_leaf ht
      exact arrContract_ok a
    · rw [hk] at hc
      simp [Nm.pair] at hc

/-- The sum of an array and a nested network. -/
def nestedSum : TVal Nat := .sum [(.str "a", arrVal [2] fun i => i.headD 0 + 3), (.str "b", TVal.ofTN expandOuter)]

/-- The hypotheses of `c01_nested_partial` are met, and an entry of the result. -/
example : TVal.Contractable exampleBackend 3 exampleBackend nestedSum ∧
    ∃ r, TVal.contract exampleBackend 3 exampleBackend nestedSum = some r ∧ r.shape = [2] ∧ r.get [1] = 171 := by
  have h : TVal.Contractable exampleBackend 3 exampleBackend nestedSum := by
    unfold nestedSum
    rw [TVal.Contractable]
    refine ⟨by simp, fun p hp => ?_, [2], fun p hp => ?_⟩
    · simp only [List.mem_cons, List.not_mem_nil, or_false] at hp
      rcases hp with rfl | rfl
      · show TVal.Contractable _ _ _ (.ten (some _))
        rw [TVal.Contractable]; rfl
      · exact expandOuter_contractable
    · simp only [List.mem_cons, List.not_mem_nil, or_false] at hp
      rcases hp with rfl | rfl <;> rfl
  obtain ⟨r, h1, h2, h3⟩ := TVal.c01_nested_partial exampleBackend_sound 3 exampleBackend_sound h [2] rfl
  exact ⟨h, r, h1, h2, by rw [h3 [1] (by simp [InRange])]; decide +kernel⟩

end Verif
