import Verif.Spec.Evolve
import Verif.Lemmas.Einsum
/-!
# A network grown backwards along a sequence of operations computes the evolution
-/

set_option linter.unusedSectionVars false

namespace Verif

variable {R : Type} [CommSemiring R] {E : Type} [DecidableEq E]

/-- Sums over paired variables agree if the summands do. -/
theorem sumOver_transfer {E' : Type} [DecidableEq E'] {dom : E → Finset Nat} {dom' : E' → Finset Nat}
    (L : List (E × E')) (h1 : (L.map Prod.fst).Nodup) (h2 : (L.map Prod.snd).Nodup)
    (hd : ∀ p ∈ L, dom p.1 = dom' p.2) {f : (E → Nat) → R} {g : (E' → Nat) → R} {a : E → Nat} {a' : E' → Nat}
    (h : ∀ b c, Reach dom (L.map Prod.fst) a b → Reach dom' (L.map Prod.snd) a' c → (∀ p ∈ L, b p.1 = c p.2) →
      f b = g c) :
    sumOver dom (L.map Prod.fst) f a = sumOver dom' (L.map Prod.snd) g a' := by
  induction L generalizing a a' with
  | nil => exact h a a' ⟨fun _ _ => rfl, by simp⟩ ⟨fun _ _ => rfl, by simp⟩ (by simp)
  | cons p L ih =>
    obtain ⟨e, e'⟩ := p
    simp only [List.map_cons, List.nodup_cons] at h1 h2
    simp only [List.map_cons, sumOver_cons]
    rw [← hd (e, e') (by simp)]
    refine Finset.sum_congr rfl fun x hx => ih h1.2 h2.2 (fun p hp => hd p (by simp [hp])) fun b c hb hc hbc => ?_
    refine h b c (Reach.cons hx hb) (Reach.cons (by rw [← hd (e, e') (by simp)]; exact hx) hc) fun p hp => ?_
    rcases List.mem_cons.1 hp with rfl | hp
    · dsimp only
      rw [hb.1 e h1.1, hc.1 e' h2.1]; simp
    · exact hbc p hp

/-- Independent sums commute. -/
theorem sumOver_comm {E' : Type} [DecidableEq E'] {dom : E → Finset Nat} {dom' : E' → Finset Nat} (l : List E)
    (l' : List E') (h : (E → Nat) → (E' → Nat) → R) (a : E → Nat) (a' : E' → Nat) :
    sumOver dom l (fun x => sumOver dom' l' (fun y => h x y) a') a =
      sumOver dom' l' (fun y => sumOver dom l (fun x => h x y) a) a' := by
  induction l generalizing a with
  | nil => rfl
  | cons e es ih =>
    simp only [sumOver_cons, ih]
    rw [sumOver_sum]

/-- `Ψ` does not look at the qubits of `B`. -/
def Blind (Ψ : (Int → Nat) → R) (B : Int → Prop) : Prop := ∀ a b, (∀ q, ¬ B q → a q = b q) → Ψ a = Ψ b

theorem Blind.mono {Ψ : (Int → Nat) → R} {B B' : Int → Prop} (h : Blind Ψ B) (hB : ∀ q, B' q → B q) : Blind Ψ B' :=
  fun a b hab => h a b fun q hq => hab q fun hc => hq (hB q hc)

/-- The state of the converter in abstract form: factors, edges summed already, the open wires towards the past
(`live`, edge `dic q`) and towards the future (`ends`, edge `dout q`). -/
structure Front (E R : Type) where
  fs : List (Factor E R) := []
  closed : List E := []
  live : List Int := []
  dic : Int → E
  ends : List Int := []
  dout : Int → E

namespace Front

/-- The edge on which operation outputs qubit `q`. -/
def outEdge (F : Front E R) (eo : Int → E) (q : Int) : E := if q ∈ F.live then F.dic q else eo q

/-- One more operation at the beginning; `en`, `eo` name its edges. -/
def step (F : Front E R) (p : Act R) (en eo : Int → E) : Front E R where
  fs := ⟨p.outs.map (F.outEdge eo) ++ p.ins.map en, p.ten⟩ :: F.fs
  closed := (F.live.filter (· ∈ p.outs)).map F.dic ++ F.closed
  live := F.live.filter (· ∉ p.outs) ++ p.ins
  dic := fun q => if q ∈ p.ins then en q else F.dic q
  ends := p.outs.filter (· ∉ F.live) ++ F.ends
  dout := fun q => if q ∈ p.outs ∧ q ∉ F.live then eo q else F.dout q

variable (qb : E → Int)

/-- The value of an edge: `x` on the wires towards the past, `u` on the others. -/
def asg (F : Front E R) (x u : Int → Nat) (e : E) : Nat :=
  if qb e ∈ F.live ∧ F.dic (qb e) = e then x (qb e) else u (qb e)

/-- Invariants. -/
structure OK (F : Front E R) : Prop where
  live_nodup : F.live.Nodup
  ends_nodup : F.ends.Nodup
  closed_nodup : F.closed.Nodup
  dic_qb : ∀ q ∈ F.live, qb (F.dic q) = q
  dout_qb : ∀ q ∈ F.ends, qb (F.dout q) = q
  dic_open : ∀ q ∈ F.live, F.dic q ∉ F.closed
  dout_open : ∀ q ∈ F.ends, F.dout q ∉ F.closed
  differ : ∀ q ∈ F.live, q ∈ F.ends → F.dic q ≠ F.dout q
  legs : ∀ f ∈ F.fs, ∀ e ∈ f.legs, e ∈ F.closed ∨ (∃ q ∈ F.live, e = F.dic q) ∨ ∃ q ∈ F.ends, e = F.dout q

/-- What is needed of an operation put at the beginning: its wires fit, its edges are new. -/
structure Fits (F : Front E R) (born : Int → Prop) (p : Act R) (en eo : Int → E) : Prop where
  ins_nodup : p.ins.Nodup
  outs_nodup : p.outs.Nodup
  en_qb : ∀ q ∈ p.ins, qb (en q) = q
  eo_qb : ∀ q ∈ p.outs, qb (eo q) = q
  ins_free : ∀ q ∈ p.ins, q ∉ p.outs → q ∉ F.live
  outs_free : ∀ q ∈ p.outs, ¬ born q
  outs_ends : ∀ q ∈ p.outs, q ∉ F.live → q ∉ F.ends
  en_closed : ∀ q ∈ p.ins, en q ∉ F.closed
  en_dic : ∀ q ∈ p.ins, q ∈ F.live → en q ≠ F.dic q
  en_dout : ∀ q ∈ p.ins, q ∈ F.ends → en q ≠ F.dout q
  en_eo : ∀ q ∈ p.ins, q ∈ p.outs → q ∉ F.live → en q ≠ eo q
  eo_closed : ∀ q ∈ p.outs, q ∉ F.live → eo q ∉ F.closed

variable {qb}

theorem OK.dic_inj {F : Front E R} (h : F.OK qb) {q q' : Int} (hq : q ∈ F.live) (hq' : q' ∈ F.live)
    (he : F.dic q = F.dic q') : q = q' := by
  rw [← h.dic_qb q hq, he, h.dic_qb q' hq']

theorem OK.step {F : Front E R} {born : Int → Prop} {p : Act R} {en eo : Int → E} (h : F.OK qb)
    (hp : F.Fits qb born p en eo) : (F.step p en eo).OK qb := by
  have hmem : ∀ q, q ∈ (F.step p en eo).live ↔ (q ∈ F.live ∧ q ∉ p.outs) ∨ q ∈ p.ins := fun q => by
    simp [Front.step]
  have hend : ∀ q, q ∈ (F.step p en eo).ends ↔ (q ∈ p.outs ∧ q ∉ F.live) ∨ q ∈ F.ends := fun q => by
    simp [Front.step]
  have hcl : ∀ e, e ∈ (F.step p en eo).closed ↔ (∃ q ∈ F.live, q ∈ p.outs ∧ F.dic q = e) ∨ e ∈ F.closed := fun e => by
    simp [Front.step, and_assoc]
  refine ⟨?_, ?_, ?_, ?_, ?_, ?_, ?_, ?_, ?_⟩
  · show (F.live.filter (· ∉ p.outs) ++ p.ins).Nodup
    refine List.nodup_append.2 ⟨h.live_nodup.filter _, hp.ins_nodup, fun q hq q' hq' he => ?_⟩
    subst he
    simp only [List.mem_filter, decide_eq_true_eq] at hq
    exact hp.ins_free q hq' hq.2 hq.1
  · show (p.outs.filter (· ∉ F.live) ++ F.ends).Nodup
    refine List.nodup_append.2 ⟨hp.outs_nodup.filter _, h.ends_nodup, fun q hq q' hq' he => ?_⟩
    subst he
    simp only [List.mem_filter, decide_eq_true_eq] at hq
    exact hp.outs_ends q hq.1 hq.2 hq'
  · show ((F.live.filter (· ∈ p.outs)).map F.dic ++ F.closed).Nodup
    refine List.nodup_append.2 ⟨?_, h.closed_nodup, fun e he e' he' hee => ?_⟩
    · refine List.Nodup.map_on (fun q hq q' hq' he => ?_) (h.live_nodup.filter _)
      exact h.dic_inj (List.mem_filter.1 hq).1 (List.mem_filter.1 hq').1 he
    · subst hee
      obtain ⟨q, hq, rfl⟩ := List.mem_map.1 he
      exact h.dic_open q (List.mem_filter.1 hq).1 he'
  · intro q hq
    show qb (if q ∈ p.ins then en q else F.dic q) = q
    split
    · next hi => exact hp.en_qb q hi
    · next hi => exact h.dic_qb q (((hmem q).1 hq).resolve_right hi).1
  · intro q hq
    show qb (if q ∈ p.outs ∧ q ∉ F.live then eo q else F.dout q) = q
    split
    · next hi => exact hp.eo_qb q hi.1
    · next hi => exact h.dout_qb q (((hend q).1 hq).resolve_left hi)
  · intro q hq hc
    have hqc : (if q ∈ p.ins then en q else F.dic q) ∈ (F.step p en eo).closed := hc
    rw [hcl] at hqc
    split at hqc
    · next hi =>
      rcases hqc with ⟨q', hq', _, he⟩ | hqc
      · have : q' = q := by rw [← h.dic_qb q' hq', he, hp.en_qb q hi]
        subst this
        exact hp.en_dic q' hi hq' he.symm
      · exact hp.en_closed q hi hqc
    · next hi =>
      have hq' := ((hmem q).1 hq).resolve_right hi
      rcases hqc with ⟨q', h1, h2, he⟩ | hqc
      · exact hq'.2 (h.dic_inj h1 hq'.1 he ▸ h2)
      · exact h.dic_open q hq'.1 hqc
  · intro q hq hc
    have hqc : (if q ∈ p.outs ∧ q ∉ F.live then eo q else F.dout q) ∈ (F.step p en eo).closed := hc
    rw [hcl] at hqc
    split at hqc
    · next hi =>
      rcases hqc with ⟨q', hq', _, he⟩ | hqc
      · have : q' = q := by rw [← h.dic_qb q' hq', he, hp.eo_qb q hi.1]
        exact hi.2 (this ▸ hq')
      · exact hp.eo_closed q hi.1 hi.2 hqc
    · next hi =>
      have hq' := ((hend q).1 hq).resolve_left hi
      rcases hqc with ⟨q', h1, h2, he⟩ | hqc
      · have : q' = q := by rw [← h.dic_qb q' h1, he, h.dout_qb q hq']
        subst this
        exact h.differ q' h1 hq' he
      · exact h.dout_open q hq' hqc
  · intro q hq hq'
    show (if q ∈ p.ins then en q else F.dic q) ≠ (if q ∈ p.outs ∧ q ∉ F.live then eo q else F.dout q)
    by_cases hi : q ∈ p.ins
    · rw [if_pos hi]
      split
      · next ho => exact hp.en_eo q hi ho.1 ho.2
      · next ho => exact hp.en_dout q hi (((hend q).1 hq').resolve_left ho)
    · have hl := ((hmem q).1 hq).resolve_right hi
      rw [if_neg hi, if_neg fun ho => hl.2 ho.1]
      exact h.differ q hl.1 (((hend q).1 hq').resolve_left fun ho => hl.2 ho.1)
  · intro f hf e he
    have key : ∀ q ∈ p.ins, ∃ q' ∈ (F.step p en eo).live, en q = (F.step p en eo).dic q' := fun q hq =>
      ⟨q, (hmem q).2 (Or.inr hq), (if_pos hq).symm⟩
    rcases List.mem_cons.1 hf with rfl | hf
    · rcases List.mem_append.1 he with he | he
      · obtain ⟨q, hq, rfl⟩ := List.mem_map.1 he
        unfold outEdge
        by_cases hl : q ∈ F.live
        · rw [if_pos hl]
          exact Or.inl ((hcl _).2 (Or.inl ⟨q, hl, hq, rfl⟩))
        · rw [if_neg hl]
          exact Or.inr (Or.inr ⟨q, (hend q).2 (Or.inl ⟨hq, hl⟩), (if_pos ⟨hq, hl⟩).symm⟩)
      · obtain ⟨q, hq, rfl⟩ := List.mem_map.1 he
        exact Or.inr (Or.inl (key q hq))
    · rcases h.legs f hf e he with hc | ⟨q, hq, rfl⟩ | ⟨q, hq, rfl⟩
      · exact Or.inl ((hcl e).2 (Or.inr hc))
      · by_cases ho : q ∈ p.outs
        · exact Or.inl ((hcl _).2 (Or.inl ⟨q, hq, ho, rfl⟩))
        · refine Or.inr (Or.inl ⟨q, (hmem q).2 (Or.inl ⟨hq, ho⟩), ?_⟩)
          exact (if_neg fun hi => hp.ins_free q hi ho hq).symm
      · refine Or.inr (Or.inr ⟨q, (hend q).2 (Or.inr hq), ?_⟩)
        exact (if_neg fun ho => hp.outs_ends q ho.1 ho.2 hq).symm

/-- The sum over the closed edges. -/
def kernel (F : Front E R) (b : E → Nat) : R := sumOver (fun _ => Finset.range 2) F.closed (prodAt F.fs) b

/-- The network computes the evolution by the operations read so far. -/
def Computes (qb : E → Int) (F : Front E R) (born : Int → Prop) (S : List (Act R)) : Prop :=
  ∀ Ψ : (Int → Nat) → R, Blind Ψ born → ∀ u, evolve S Ψ u = sumOver bits F.live (fun x => F.kernel (F.asg qb x u) * Ψ x) u

theorem kernel_congr {F : Front E R} (h : F.OK qb) {b c : E → Nat} (h1 : ∀ q ∈ F.live, b (F.dic q) = c (F.dic q))
    (h2 : ∀ q ∈ F.ends, b (F.dout q) = c (F.dout q)) : F.kernel b = F.kernel c := by
  refine sumOver_base_dep (prodAt_dependsOn F.fs) fun e he hc => ?_
  obtain ⟨f, hf, he⟩ := List.mem_flatMap.1 he
  rcases h.legs f hf e he with hc' | ⟨q, hq, rfl⟩ | ⟨q, hq, rfl⟩
  · exact absurd hc' hc
  · exact h1 q hq
  · exact h2 q hq

theorem Computes.step {F : Front E R} {born : Int → Prop} {S : List (Act R)} {p : Act R} {en eo : Int → E}
    (h : F.OK qb) (hp : F.Fits qb born p en eo) (hc : F.Computes qb born S) :
    (F.step p en eo).Computes qb (fun q => q ∉ p.ins ∧ (q ∈ p.outs ∨ born q)) (p :: S) := by
  intro Ψ hΨ u
  -- the operation hides what it consumes
  have hblind : Blind (p.apply Ψ) born := by
    intro a b hab
    have e1 : p.outs.map a = p.outs.map b := List.map_congr_left fun q hq => hab q (hp.outs_free q hq)
    unfold Act.apply
    rw [e1]
    have L : p.ins = (p.ins.map fun q => (q, q)).map Prod.fst := by rw [List.map_map]; exact (List.map_id _).symm
    have L' : p.ins = (p.ins.map fun q => (q, q)).map Prod.snd := by rw [List.map_map]; exact (List.map_id _).symm
    have hn : ((p.ins.map fun q => (q, q)).map Prod.fst).Nodup := by rw [← L]; exact hp.ins_nodup
    have hn' : ((p.ins.map fun q => (q, q)).map Prod.snd).Nodup := by rw [← L']; exact hp.ins_nodup
    have := sumOver_transfer (dom := bits) (dom' := bits) (p.ins.map fun q => (q, q)) hn hn' (fun q _ => rfl)
      (f := fun x => p.ten (p.outs.map b ++ p.ins.map x) * Ψ x) (g := fun x => p.ten (p.outs.map b ++ p.ins.map x) * Ψ x)
      (a := a) (a' := b) (by
        intro x y hx hy hxy
        rw [← L] at hx
        rw [← L'] at hy
        have e2 : ∀ q ∈ p.ins, x q = y q := fun q hq => hxy (q, q) (List.mem_map.2 ⟨q, hq, rfl⟩)
        rw [List.map_congr_left e2]
        congr 1
        refine hΨ x y fun q hq => ?_
        by_cases hi : q ∈ p.ins
        · exact e2 q hi
        · rw [hx.1 q hi, hy.1 q hi]
          exact hab q fun hb => hq ⟨hi, Or.inr hb⟩)
    rw [← L, ← L'] at this
    exact this
  show evolve S (p.apply Ψ) u = _
  rw [hc _ hblind u]
  have hperm : F.live.Perm (F.live.filter (· ∉ p.outs) ++ F.live.filter (· ∈ p.outs)) := by
    refine perm_of_nodup_mem h.live_nodup ?_ fun q => by simp only [List.mem_append, List.mem_filter, decide_eq_true_eq]; tauto
    refine List.nodup_append.2 ⟨h.live_nodup.filter _, h.live_nodup.filter _, fun q hq q' hq' he => ?_⟩
    subst he
    simp only [List.mem_filter, decide_eq_true_eq] at hq hq'
    exact hq.2 hq'.2
  rw [sumOver_perm hperm, sumOver_append]
  show _ = sumOver bits (F.live.filter (· ∉ p.outs) ++ p.ins) _ u
  rw [sumOver_append]
  refine sumOver_congr_reach fun x1 hx1 => ?_
  have hx1' : ∀ q, q ∉ F.live ∨ q ∈ p.outs → x1 q = u q := fun q hq => hx1.1 q (by
    simp only [List.mem_filter, decide_eq_true_eq, not_and]
    rcases hq with hq | hq
    · exact fun hc => absurd hc hq
    · exact fun _ hc => hc hq)
  -- separate the two sums
  have e1 : sumOver bits (F.live.filter (· ∈ p.outs)) (fun x => F.kernel (F.asg qb x u) * p.apply Ψ x) x1 =
      sumOver bits (F.live.filter (· ∈ p.outs)) (fun x => sumOver bits p.ins
        (fun y => F.kernel (F.asg qb x u) * p.ten (p.outs.map x ++ p.ins.map y) * Ψ y) x1) x1 := by
    refine sumOver_congr_reach fun x hx => ?_
    unfold Act.apply
    rw [← sumOver_const_mul]
    have L : p.ins = (p.ins.map fun q => (q, q)).map Prod.fst := by rw [List.map_map]; exact (List.map_id _).symm
    have L' : p.ins = (p.ins.map fun q => (q, q)).map Prod.snd := by rw [List.map_map]; exact (List.map_id _).symm
    have hn : ((p.ins.map fun q => (q, q)).map Prod.fst).Nodup := by rw [← L]; exact hp.ins_nodup
    have hn' : ((p.ins.map fun q => (q, q)).map Prod.snd).Nodup := by rw [← L']; exact hp.ins_nodup
    have := sumOver_transfer (dom := bits) (dom' := bits) (p.ins.map fun q => (q, q)) hn hn' (fun q _ => rfl)
      (f := fun y => F.kernel (F.asg qb x u) * (p.ten (p.outs.map x ++ p.ins.map y) * Ψ y))
      (g := fun y => F.kernel (F.asg qb x u) * p.ten (p.outs.map x ++ p.ins.map y) * Ψ y)
      (a := x) (a' := x1) (by
        intro y z hy hz hyz
        rw [← L] at hy
        rw [← L'] at hz
        have e2 : ∀ q ∈ p.ins, y q = z q := fun q hq => hyz (q, q) (List.mem_map.2 ⟨q, hq, rfl⟩)
        rw [List.map_congr_left e2, mul_assoc]
        congr 2
        refine hΨ y z fun q hq => ?_
        by_cases hi : q ∈ p.ins
        · exact e2 q hi
        · rw [hy.1 q hi, hz.1 q hi]
          refine hx.1 q fun hm => hq ⟨hi, Or.inl ?_⟩
          exact of_decide_eq_true (List.mem_filter.1 hm).2)
    rw [← L, ← L'] at this
    exact this
  rw [e1, sumOver_comm]
  refine sumOver_congr_reach fun z hz => ?_
  rw [sumOver_mul_right_indep (g := fun _ => Ψ z)
    (f := fun x => F.kernel (F.asg qb x u) * p.ten (p.outs.map x ++ p.ins.map z)) (fun _ _ _ => rfl)]
  congr 1
  -- the new kernel
  have hz' : ∀ q, q ∉ p.ins → z q = x1 q := hz.1
  have e2 : (F.step p en eo).kernel ((F.step p en eo).asg qb z u) =
      sumOver (fun _ => Finset.range 2) ((F.live.filter (· ∈ p.outs)).map F.dic)
        (fun b => Factor.at ⟨p.outs.map (F.outEdge eo) ++ p.ins.map en, p.ten⟩ b * F.kernel b)
        ((F.step p en eo).asg qb z u) := by
    unfold kernel
    show sumOver _ ((F.live.filter (· ∈ p.outs)).map F.dic ++ F.closed) (prodAt (_ :: F.fs)) _ = _
    rw [sumOver_append]
    refine sumOver_congr fun b => ?_
    rw [← sumOver_mul_left_indep]
    · exact sumOver_congr fun c => prodAt_cons _ _ _
    · refine (Factor.at_dependsOn _).indep fun e he => ?_
      rcases List.mem_append.1 he with he | he
      · obtain ⟨q, hq, rfl⟩ := List.mem_map.1 he
        unfold outEdge
        split
        · next hl => exact h.dic_open q hl
        · next hl => exact hp.eo_closed q hq hl
      · obtain ⟨q, hq, rfl⟩ := List.mem_map.1 he
        exact hp.en_closed q hq
  rw [e2]
  have M1 : (F.live.filter (· ∈ p.outs)) = ((F.live.filter (· ∈ p.outs)).map fun q => (q, F.dic q)).map Prod.fst := by
    rw [List.map_map]; exact (List.map_id _).symm
  have M2 : (F.live.filter (· ∈ p.outs)).map F.dic =
      ((F.live.filter (· ∈ p.outs)).map fun q => (q, F.dic q)).map Prod.snd := by simp
  have n1 : (((F.live.filter (· ∈ p.outs)).map fun q => (q, F.dic q)).map Prod.fst).Nodup := by
    rw [← M1]; exact h.live_nodup.filter _
  have n2 : (((F.live.filter (· ∈ p.outs)).map fun q => (q, F.dic q)).map Prod.snd).Nodup := by
    rw [← M2]
    exact List.Nodup.map_on (fun q hq q' hq' he => h.dic_inj (List.mem_filter.1 hq).1 (List.mem_filter.1 hq').1 he)
      (h.live_nodup.filter _)
  have key := sumOver_transfer (dom := bits) (dom' := fun _ => Finset.range 2)
    ((F.live.filter (· ∈ p.outs)).map fun q => (q, F.dic q)) n1 n2 (fun _ _ => rfl)
    (f := fun x => F.kernel (F.asg qb x u) * p.ten (p.outs.map x ++ p.ins.map z))
    (g := fun b => Factor.at ⟨p.outs.map (F.outEdge eo) ++ p.ins.map en, p.ten⟩ b * F.kernel b)
    (a := x1) (a' := (F.step p en eo).asg qb z u) (by
      intro x b hx hb hxb
      rw [← M1] at hx
      rw [← M2] at hb
      have hxb' : ∀ q ∈ F.live, q ∈ p.outs → b (F.dic q) = x q := fun q h1 h2 =>
        (hxb (q, F.dic q) (List.mem_map.2 ⟨q, List.mem_filter.2 ⟨h1, decide_eq_true h2⟩, rfl⟩)).symm
      have hbo : ∀ e, (∀ q ∈ F.live, q ∈ p.outs → e ≠ F.dic q) → b e = (F.step p en eo).asg qb z u e := fun e he =>
        hb.1 e fun hm => by
          obtain ⟨q, hq, rfl⟩ := List.mem_map.1 hm
          exact he q (List.mem_filter.1 hq).1 (of_decide_eq_true (List.mem_filter.1 hq).2) rfl
      have hxo : ∀ q, q ∉ F.live ∨ q ∉ p.outs → x q = x1 q := fun q hq => hx.1 q fun hm => by
        rcases hq with hq | hq
        · exact hq (List.mem_filter.1 hm).1
        · exact hq (of_decide_eq_true (List.mem_filter.1 hm).2)
      have stepDic : ∀ q, (F.step p en eo).dic q = if q ∈ p.ins then en q else F.dic q := fun _ => rfl
      have stepLive : ∀ q, q ∈ (F.step p en eo).live ↔ (q ∈ F.live ∧ q ∉ p.outs) ∨ q ∈ p.ins := fun q => by
        simp [Front.step]
      rw [mul_comm]
      congr 1
      · -- the entry of the operation
        unfold Factor.at
        dsimp only
        rw [List.map_append, List.map_map, List.map_map]
        congr 2
        · refine List.map_congr_left fun q hq => ?_
          show x q = b (F.outEdge eo q)
          unfold outEdge
          by_cases hl : q ∈ F.live
          · rw [if_pos hl, hxb' q hl hq]
          · rw [if_neg hl, hxo q (Or.inl hl), hx1' q (Or.inl hl), hbo _ fun q' h1 _ he => hl ?_]
            · unfold asg
              rw [hp.eo_qb q hq, if_neg]
              rintro ⟨h1, h2⟩
              rw [stepDic] at h2
              rcases (stepLive q).1 h1 with h1 | h1
              · exact hl h1.1
              · rw [if_pos h1] at h2
                exact hp.en_eo q h1 hq hl h2
            · have : q' = q := by rw [← h.dic_qb q' h1, ← he, hp.eo_qb q hq]
              exact this ▸ h1
        · refine List.map_congr_left fun q hq => ?_
          show z q = b (en q)
          rw [hbo _ fun q' h1 _ he => ?_]
          · unfold asg
            rw [hp.en_qb q hq, if_pos ⟨(stepLive q).2 (Or.inr hq), by rw [stepDic, if_pos hq]⟩]
          · have : q' = q := by rw [← h.dic_qb q' h1, ← he, hp.en_qb q hq]
            subst this
            exact hp.en_dic q' hq h1 he
      · -- the rest
        refine kernel_congr h (fun q hq => ?_) fun q hq => ?_
        · unfold asg
          rw [h.dic_qb q hq, if_pos ⟨hq, rfl⟩]
          by_cases ho : q ∈ p.outs
          · exact (hxb' q hq ho).symm
          · have hi : q ∉ p.ins := fun hi => hp.ins_free q hi ho hq
            rw [hxo q (Or.inr ho), hbo _ fun q' h1 h2 he => ho (h.dic_inj hq h1 he ▸ h2)]
            unfold asg
            rw [h.dic_qb q hq, if_pos ⟨(stepLive q).2 (Or.inl ⟨hq, ho⟩), by rw [stepDic, if_neg hi]⟩, hz' q hi]
        · have hd : ∀ q' ∈ F.live, F.dout q ≠ F.dic q' := fun q' h1 he => by
            have : q' = q := by rw [← h.dic_qb q' h1, ← he, h.dout_qb q hq]
            subst this
            exact h.differ q' h1 hq he.symm
          rw [hbo _ fun q' h1 _ => hd q' h1]
          unfold asg
          rw [h.dout_qb q hq, if_neg fun hc => hd q hc.1 hc.2.symm, if_neg]
          rintro ⟨h1, h2⟩
          rw [stepDic] at h2
          split at h2
          · next hi => exact hp.en_dout q hi hq h2
          · next hi => exact hd q (((stepLive q).1 h1).resolve_right hi).1 h2.symm)
  rw [← M1, ← M2] at key
  exact key

theorem computes_nil (dic dout : Int → E) (born : Int → Prop) :
    (Front.mk [] [] [] dic [] dout : Front E R).Computes qb born [] := by
  intro Ψ _ u
  show Ψ u = sumOver _ [] _ u
  simp [kernel, prodAt]

theorem ok_nil (dic dout : Int → E) : (Front.mk [] [] [] dic [] dout : Front E R).OK qb := by
  refine ⟨?_, ?_, ?_, ?_, ?_, ?_, ?_, ?_, ?_⟩ <;> simp

end Front

end Verif
