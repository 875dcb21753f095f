import Verif.Model.Qaoa
import Verif.Lemmas.Sketch
import Verif.Lemmas.Cone
/-!
# The network of a light cone
-/

namespace Verif

variable {τ : Type}

theorem pt_inj {k k' : Int} {x x' : Nm} : pt k x = pt k' x' ↔ k = k' ∧ x = x' := by
  simp [pt, Nm.pair]

theorem ofList_injective : Function.Injective Nm.ofList := by
  intro a b h
  induction a generalizing b with
  | nil => cases b with
    | nil => rfl
    | cons y b => cases h
  | cons x a ih => cases b with
    | nil => cases h
    | cons y b =>
      rw [Nm.ofList, Nm.ofList] at h
      injection h with h1 h2
      rw [h1, ih h2]

/-- The qubits in the cone after some layers. -/
def coneSet (csp : List (List Nm)) (S0 : List Nm) : Nat → List Nm
  | 0 => S0.dedup
  | i + 1 => coneSet csp S0 i ++ ((csp.filter (clauseMeets (coneSet csp S0 i))).flatten.filter fun q => decide (q ∉ coneSet csp S0 i)).dedup

/-- The rotations of a layer. -/
def rotNL (i : Nat) (qs : List Nm) : List (Nm × List Nm) :=
  qs.flatMap fun q => [(pt (2 * i + 1) q, [pt i q, pt (i + 1) q]), (pt (-2 * i - 1) q, [pt (-i) q, pt (-i - 1) q])]

/-- The phases of a layer. -/
def phaseNL (i : Nat) (cs : List (List Nm)) : List (Nm × List Nm) :=
  cs.flatMap fun c => [(pt (2 * i + 2) (Nm.ofList c), c.map fun q => pt (i + 1) q), (pt (-2 * i - 2) (Nm.ofList c), c.map fun q => pt (-i - 1) q)]

/-- The nodes of some layers. -/
def coneNL (perm : List Nm → List Nm) (csp : List (List Nm)) (S0 : List Nm) : Nat → List (Nm × List Nm)
  | 0 => []
  | i + 1 => coneNL perm csp S0 i ++ rotNL i (perm (coneSet csp S0 i)) ++ phaseNL i (csp.filter (clauseMeets (coneSet csp S0 i)))

theorem nodup_pairs {A B : Type} {l : List A} (hl : l.Nodup) {g h : A → B} (hg : Function.Injective g) (hh : Function.Injective h) (hgh : ∀ x y, g x ≠ h y) :
    (l.flatMap fun x => [g x, h x]).Nodup := by
  induction l with
  | nil => simp
  | cons x l ih =>
    rw [List.nodup_cons] at hl
    have : ∀ y, y ∈ (l.flatMap fun x => [g x, h x]) ↔ ∃ x ∈ l, y = g x ∨ y = h x := by simp [List.mem_flatMap]
    rw [List.flatMap_cons, List.nodup_append]
    refine ⟨by simp [hgh], ih hl.2, ?_⟩
    intro a ha b hb hab
    subst hab
    rw [this] at hb
    obtain ⟨y, hy, hb⟩ := hb
    simp only [List.mem_cons, List.not_mem_nil, or_false] at ha
    rcases ha with ha | ha <;> rcases hb with hb | hb
    · exact hl.1 (hg (ha.symm.trans hb) ▸ hy)
    · exact hgh _ _ (ha.symm.trans hb)
    · exact hgh _ _ (hb.symm.trans ha)
    · exact hl.1 (hh (ha.symm.trans hb) ▸ hy)

theorem rotNL_names (i : Nat) (qs : List Nm) : (rotNL i qs).map Prod.fst = qs.flatMap fun q => [pt (2 * i + 1) q, pt (-2 * i - 1) q] := by
  simp [rotNL, List.map_flatMap]

theorem phaseNL_names (i : Nat) (cs : List (List Nm)) :
    (phaseNL i cs).map Prod.fst = cs.flatMap fun c => [pt (2 * i + 2) (Nm.ofList c), pt (-2 * i - 2) (Nm.ofList c)] := by
  simp [phaseNL, List.map_flatMap]

theorem coneNL_bound {perm : List Nm → List Nm} {csp : List (List Nm)} {S0 : List Nm} :
    ∀ {i : Nat} {n : Nm}, n ∈ (coneNL perm csp S0 i).map Prod.fst → ∃ (k : Int) (x : Nm), n = pt k x ∧ k ≠ 0 ∧ k ≤ 2 * i ∧ -(2 * i : Int) ≤ k
  | 0, n, h => by simp [coneNL] at h
  | i + 1, n, h => by
    rw [coneNL, List.map_append, List.map_append, rotNL_names, phaseNL_names, List.mem_append, List.mem_append] at h
    rcases h with (h | h) | h
    · obtain ⟨k, x, h1, h0, h2, h3⟩ := coneNL_bound h
      exact ⟨k, x, h1, h0, by push_cast; omega, by push_cast; omega⟩
    · simp only [List.mem_flatMap, List.mem_cons, List.not_mem_nil, or_false] at h
      obtain ⟨q, _, h | h⟩ := h
      · exact ⟨_, _, h, by omega, by push_cast; omega, by push_cast; omega⟩
      · exact ⟨_, _, h, by omega, by push_cast; omega, by push_cast; omega⟩
    · simp only [List.mem_flatMap, List.mem_cons, List.not_mem_nil, or_false] at h
      obtain ⟨q, _, h | h⟩ := h
      · exact ⟨_, _, h, by omega, by push_cast; omega, by push_cast; omega⟩
      · exact ⟨_, _, h, by omega, by push_cast; omega, by push_cast; omega⟩

theorem coneSet_nodup {csp : List (List Nm)} {S0 : List Nm} : ∀ i, (coneSet csp S0 i).Nodup
  | 0 => List.nodup_dedup _
  | i + 1 => by
    rw [coneSet, List.nodup_append]
    refine ⟨coneSet_nodup i, List.nodup_dedup _, ?_⟩
    rintro a ha b hb rfl
    rw [List.mem_dedup, List.mem_filter, decide_eq_true_eq] at hb
    exact hb.2 ha

theorem coneNL_nodup {perm : List Nm → List Nm} (hp : ∀ l, (perm l).Perm l) {csp : List (List Nm)} (hcsp : csp.Nodup) {S0 : List Nm} :
    ∀ i, ((coneNL perm csp S0 i).map Prod.fst).Nodup
  | 0 => by simp [coneNL]
  | i + 1 => by
    have h1 : ((rotNL i (perm (coneSet csp S0 i))).map Prod.fst).Nodup := by
      rw [rotNL_names]
      refine nodup_pairs ((hp _).nodup_iff.2 (coneSet_nodup i)) (fun x y h => (pt_inj.1 h).2) (fun x y h => (pt_inj.1 h).2) fun x y h => ?_
      have := (pt_inj.1 h).1
      omega
    have h2 : ((phaseNL i (csp.filter (clauseMeets (coneSet csp S0 i)))).map Prod.fst).Nodup := by
      rw [phaseNL_names]
      refine nodup_pairs (hcsp.filter _) (fun x y h => ofList_injective (pt_inj.1 h).2) (fun x y h => ofList_injective (pt_inj.1 h).2) fun x y h => ?_
      have := (pt_inj.1 h).1
      omega
    rw [coneNL, List.map_append, List.map_append, List.nodup_append, List.nodup_append]
    refine ⟨⟨coneNL_nodup hp hcsp i, h1, ?_⟩, h2, ?_⟩
    · rintro a ha b hb rfl
      obtain ⟨k, x, h1, _, h2, h3⟩ := coneNL_bound ha
      rw [rotNL_names] at hb
      simp only [List.mem_flatMap, List.mem_cons, List.not_mem_nil, or_false] at hb
      obtain ⟨q, _, h | h⟩ := hb
      · have := (pt_inj.1 (h1.symm.trans h)).1; omega
      · have := (pt_inj.1 (h1.symm.trans h)).1; omega
    · rintro a ha b hb rfl
      rw [phaseNL_names] at hb
      simp only [List.mem_flatMap, List.mem_cons, List.not_mem_nil, or_false] at hb
      rcases List.mem_append.1 ha with ha | ha
      · obtain ⟨k, x, h1, _, h2, h3⟩ := coneNL_bound ha
        obtain ⟨q, _, h | h⟩ := hb
        · have := (pt_inj.1 (h1.symm.trans h)).1; omega
        · have := (pt_inj.1 (h1.symm.trans h)).1; omega
      · rw [rotNL_names] at ha
        simp only [List.mem_flatMap, List.mem_cons, List.not_mem_nil, or_false] at ha
        obtain ⟨q, _, h | h⟩ := hb <;> obtain ⟨q', _, h' | h'⟩ := ha <;>
        · have := (pt_inj.1 (h'.symm.trans h)).1; omega

theorem Sketch.addTwo [HasShape τ] {hole : τ} (hh : HasShape.shape hole = none) {tn : TN τ} {NL : List (Nm × List Nm)} (h : Sketch none tn NL) {p q : Nm × List Nm}
    (hp : p.1 ∉ NL.map Prod.fst) (hq : q.1 ∉ (NL ++ [p]).map Prod.fst) :
    ∃ tn', Verif.addTwo hole tn p q = (tn', .ok ()) ∧ Sketch none tn' (NL ++ [p, q]) := by
  obtain ⟨t1, h1, k1⟩ := h.addNode hh (n := p.1) (ident := .int 0) (es := p.2) hp (Or.inl rfl)
  obtain ⟨t2, h2, k2⟩ := k1.addNode hh (n := q.1) (ident := .int 0) (es := q.2) hq (Or.inl rfl)
  refine ⟨t2, ?_, by simpa using k2⟩
  unfold Verif.addTwo
  rw [h1]
  dsimp only
  rw [h2]

theorem Sketch.addTwos [HasShape τ] {hole : τ} (hh : HasShape.shape hole = none) {A : Type} {f : TN τ → A → Res τ Unit} {p q : A → Nm × List Nm}
    (hf : ∀ tn x, f tn x = Verif.addTwo hole tn (p x) (q x)) {l : List A} :
    ∀ {tn : TN τ} {NL : List (Nm × List Nm)}, Sketch none tn NL → ((NL ++ l.flatMap fun x => [p x, q x]).map Prod.fst).Nodup →
    ∃ tn', forLoop f l tn = (tn', .ok ()) ∧ Sketch none tn' (NL ++ l.flatMap fun x => [p x, q x]) := by
  induction l with
  | nil => exact fun {tn NL} h _ => ⟨tn, rfl, by simpa using h⟩
  | cons x l ih =>
    intro tn NL h hn
    have hn' := hn
    rw [List.flatMap_cons, ← List.append_assoc, List.map_append, List.nodup_append] at hn
    have hn1 := hn.1
    rw [List.map_append, List.nodup_append] at hn1
    obtain ⟨t1, h1, k1⟩ := h.addTwo hh (p := p x) (q := q x) (fun hc => hn1.2.2 _ hc _ (by simp) rfl) (by
      rw [List.map_append, List.mem_append]
      rintro (hc | hc)
      · exact hn1.2.2 _ hc _ (by simp) rfl
      · have := hn1.2.1
        simp at hc this
        exact this hc.symm)
    obtain ⟨t2, h2, k2⟩ := ih k1 (by simpa using hn')
    refine ⟨t2, ?_, by simpa using k2⟩
    rw [forLoop, hf, h1]
    exact h2

/-- The turns after some layers. -/
structure Turns (csp : List (List Nm)) (S0 : List Nm) (i : Nat) (T : Dict Nm Nat) : Prop where
  nodup : T.keys.Nodup
  mem : ∀ q t, (q, t) ∈ T ↔ ∃ j < i, t = j + 1 ∧ q ∈ coneSet csp S0 (j + 1) ∧ q ∉ coneSet csp S0 j

theorem coneSet_mono {csp : List (List Nm)} {S0 : List Nm} {i j : Nat} (h : i ≤ j) {q : Nm} (hq : q ∈ coneSet csp S0 i) : q ∈ coneSet csp S0 j := by
  induction h with
  | refl => exact hq
  | step _ ih => rw [coneSet]; exact List.mem_append_left _ ih

theorem foldl_set_new {l : List Nm} {v : Nat} : ∀ {d : Dict Nm Nat}, l.Nodup → (∀ q ∈ l, q ∉ d.keys) →
    l.foldl (fun d q => d.set q v) d = d ++ l.map fun q => (q, v) := by
  induction l with
  | nil => simp
  | cons x l ih =>
    intro d hn hd
    rw [List.nodup_cons] at hn
    rw [List.foldl_cons, Dict.set_eq_append (hd x (by simp)), ih hn.2]
    · simp
    · intro q hq
      rw [Dict.keys_append, List.mem_append]
      rintro (hc | hc)
      · exact hd q (by simp [hq]) hc
      · simp [Dict.keys] at hc
        exact hn.1 (hc ▸ hq)

theorem Turns.succ {perm : List Nm → List Nm} (hp : ∀ l, (perm l).Perm l) {csp : List (List Nm)} {S0 : List Nm} {i : Nat} {T : Dict Nm Nat} (h : Turns csp S0 i T) :
    Turns csp S0 (i + 1) ((perm ((csp.filter (clauseMeets (coneSet csp S0 i))).flatten.filter fun q => decide (q ∉ coneSet csp S0 i)).dedup).foldl (fun d q => d.set q (i + 1)) T) := by
  set N := ((csp.filter (clauseMeets (coneSet csp S0 i))).flatten.filter fun q => decide (q ∉ coneSet csp S0 i)).dedup with hN
  have hN1 : ∀ q, q ∈ N → q ∉ coneSet csp S0 i := fun q hq => by
    rw [hN, List.mem_dedup, List.mem_filter, decide_eq_true_eq] at hq
    exact hq.2
  have hN2 : ∀ q, q ∈ N ↔ q ∈ coneSet csp S0 (i + 1) ∧ q ∉ coneSet csp S0 i := fun q => by
    rw [coneSet, List.mem_append]
    exact ⟨fun hq => ⟨Or.inr hq, hN1 q hq⟩, fun hq => hq.1.resolve_left hq.2⟩
  have hnd : (perm N).Nodup := (hp N).nodup_iff.2 (List.nodup_dedup _)
  have hfr : ∀ q ∈ perm N, q ∉ T.keys := by
    intro q hq hc
    obtain ⟨t, ht⟩ := Dict.exists_get? hc
    obtain ⟨j, h1, h2, h3, h4⟩ := (h.mem q t).1 (Dict.mem_of_get? ht)
    exact hN1 q ((hp N).mem_iff.1 hq) (coneSet_mono h1 h3)
  rw [foldl_set_new hnd hfr]
  refine ⟨?_, fun q t => ?_⟩
  · rw [Dict.keys_append, List.nodup_append]
    refine ⟨h.nodup, ?_, ?_⟩
    · simpa [Dict.keys, List.map_map, Function.comp_def] using hnd
    · rintro a ha b hb rfl
      simp only [Dict.keys, List.map_map, Function.comp_def, List.map_id'] at hb
      exact hfr a hb ha
  · rw [List.mem_append, h.mem]
    have hx : (q, t) ∈ (perm N).map (fun q => (q, i + 1)) ↔ q ∈ perm N ∧ i + 1 = t := by
      simp only [List.mem_map, Prod.mk.injEq]
      exact ⟨fun ⟨a, h1, h2, h3⟩ => ⟨h2 ▸ h1, h3⟩, fun ⟨h1, h2⟩ => ⟨q, h1, rfl, h2⟩⟩
    rw [hx, (hp N).mem_iff, hN2]
    constructor
    · rintro (⟨j, h1, h2⟩ | ⟨h1, h2⟩)
      · exact ⟨j, by omega, h2⟩
      · exact ⟨i, by omega, h2.symm, h1⟩
    · rintro ⟨j, h1, h2, h3⟩
      by_cases hj : j = i
      · subst hj; exact Or.inr ⟨h3, h2.symm⟩
      · exact Or.inl ⟨j, by omega, h2, h3⟩

theorem coneLayers_ok [HasShape τ] {perm : List Nm → List Nm} (hp : ∀ l, (perm l).Perm l) {hole : τ} (hh : HasShape.shape hole = none)
    {csp : List (List Nm)} (hcsp : csp.Nodup) {S0 : List Nm} : ∀ (k i : Nat) {tn : TN τ} {T : Dict Nm Nat}, Sketch none tn (coneNL perm csp S0 i) → Turns csp S0 i T →
    ∃ tn' T', coneLayers perm hole csp k i (tn, coneSet csp S0 i, T) = .ok (tn', coneSet csp S0 (i + k), T') ∧
      Sketch none tn' (coneNL perm csp S0 (i + k)) ∧ Turns csp S0 (i + k) T'
  | 0, i, tn, T, h, hT => ⟨tn, T, rfl, h, hT⟩
  | k + 1, i, tn, T, h, hT => by
    have hnd := coneNL_nodup hp hcsp (S0 := S0) (i + 1)
    rw [coneNL] at hnd
    obtain ⟨t1, h1, k1⟩ := h.addTwos hh (f := addRot hole i) (fun _ _ => rfl) (l := perm (coneSet csp S0 i)) (by
      rw [List.map_append, List.nodup_append] at hnd
      exact hnd.1)
    obtain ⟨t2, h2, k2⟩ := k1.addTwos hh (f := addPhase hole i) (fun _ _ => rfl) (l := csp.filter (clauseMeets (coneSet csp S0 i))) hnd
    obtain ⟨t3, T3, h3, k3, l3⟩ := coneLayers_ok hp hh hcsp k (i + 1) (S0 := S0) k2 (hT.succ hp)
    refine ⟨t3, T3, ?_, by rw [show i + (k + 1) = i + 1 + k by omega]; exact k3, by rw [show i + (k + 1) = i + 1 + k by omega]; exact l3⟩
    rw [coneLayers, coneLayer]
    simp only [h1, h2]
    rw [show i + (k + 1) = i + 1 + k by omega, ← h3]
    rfl

/-- Joining the two edges of a turn. -/
def turnName (p : Nm × Nat) (i : Nm) : Nm := if i ∈ [pt p.2 p.1, pt (-p.2) p.1] then pt 0 p.1 else i

/-- The nodes after joining the edges of some turns. -/
def joinNL : List (Nm × Nat) → List (Nm × List Nm) → List (Nm × List Nm)
  | [], NL => NL
  | p :: T, NL => joinNL T (NL.map fun x => (x.1, x.2.map (turnName p)))

/-- Some node has a leg. -/
def HasLeg (NL : List (Nm × List Nm)) (e : Nm) : Prop := ∃ p ∈ NL, e ∈ p.2

theorem hasLeg_append {NL NL' : List (Nm × List Nm)} {e : Nm} : HasLeg (NL ++ NL') e ↔ HasLeg NL e ∨ HasLeg NL' e := by
  simp [HasLeg, or_and_right, exists_or]

theorem turnName_of_ne {p : Nm × Nat} {k : Int} {q : Nm} (h : q ≠ p.1 ∨ (k = 0 ∧ p.2 ≠ 0)) : turnName p (pt k q) = pt k q := by
  unfold turnName
  rw [if_neg]
  simp only [List.mem_cons, List.not_mem_nil, or_false, pt_inj]
  rcases h with h | h
  · rintro (hc | hc) <;> exact h hc.2
  · rintro (hc | hc)
    · have := hc.1; omega
    · have := hc.1; omega

theorem hasLeg_join {p : Nm × Nat} {NL : List (Nm × List Nm)} {k : Int} {q : Nm} (hq : q ≠ p.1) :
    HasLeg (NL.map fun x => (x.1, x.2.map (turnName p))) (pt k q) ↔ HasLeg NL (pt k q) := by
  unfold HasLeg
  simp only [List.mem_map, exists_exists_and_eq_and]
  refine exists_congr fun x => and_congr_right fun _ => ?_
  constructor
  · rintro ⟨i, hi, hc⟩
    unfold turnName at hc
    split at hc
    · exact absurd (pt_inj.1 hc).2.symm hq
    · exact hc ▸ hi
  · intro hi
    exact ⟨_, hi, turnName_of_ne (Or.inl hq)⟩

/-- The conditions on the turns. -/
structure TurnsOK (T : List (Nm × Nat)) (NL : List (Nm × List Nm)) : Prop where
  nodup : (T.map Prod.fst).Nodup
  pos : ∀ p ∈ T, p.2 ≠ 0
  ket : ∀ p ∈ T, HasLeg NL (pt p.2 p.1)
  bra : ∀ p ∈ T, HasLeg NL (pt (-p.2) p.1)
  new : ∀ p ∈ T, ¬ HasLeg NL (pt 0 p.1)

theorem TurnsOK.tail {p : Nm × Nat} {T : List (Nm × Nat)} {NL : List (Nm × List Nm)} (h : TurnsOK (p :: T) NL) :
    TurnsOK T (NL.map fun x => (x.1, x.2.map (turnName p))) := by
  have hn := h.nodup
  rw [List.map_cons, List.nodup_cons] at hn
  have hne : ∀ x ∈ T, x.1 ≠ p.1 := fun x hx hc => hn.1 (hc ▸ List.mem_map_of_mem hx)
  refine ⟨hn.2, fun x hx => h.pos x (by simp [hx]), fun x hx => ?_, fun x hx => ?_, fun x hx => ?_⟩
  · rw [hasLeg_join (hne x hx)]; exact h.ket x (by simp [hx])
  · rw [hasLeg_join (hne x hx)]; exact h.bra x (by simp [hx])
  · rw [hasLeg_join (hne x hx)]; exact h.new x (by simp [hx])

theorem joins_ok : ∀ {T : List (Nm × Nat)} {NL : List (Nm × List Nm)}, TurnsOK T NL → ∀ {tn : TN τ}, Sketch none tn NL →
    ∃ tn', forLoop joinTurn T tn = (tn', .ok ()) ∧ Sketch none tn' (joinNL T NL)
  | [], _, _, tn, hs => ⟨tn, rfl, hs⟩
  | p :: T, NL, h, tn, hs => by
    obtain ⟨t1, h1, k1⟩ := hs.merge (a := pt p.2 p.1) (b := pt (-p.2) p.1) (m := pt 0 p.1)
      (fun hc => by have := (pt_inj.1 hc).1; have := h.pos p (by simp); omega) (h.ket p (by simp)) (h.bra p (by simp)) (h.new p (by simp))
    obtain ⟨t2, h2, k2⟩ := joins_ok h.tail k1
    refine ⟨t2, ?_, k2⟩
    rw [forLoop, joinTurn, h1]
    exact h2

theorem joinNL_names : ∀ (T : List (Nm × Nat)) (NL : List (Nm × List Nm)), (joinNL T NL).map Prod.fst = NL.map Prod.fst
  | [], _ => rfl
  | p :: T, NL => by rw [joinNL, joinNL_names T, List.map_map]; rfl

/-- Nodes without joined edges are left as they are. -/
theorem joinNL_append : ∀ {T : List (Nm × Nat)} {NL : List (Nm × List Nm)} {n : Nm} {qs : List Nm}, (∀ p ∈ T, p.2 ≠ 0) →
    joinNL T (NL ++ [(n, qs.map fun q => pt 0 q)]) = joinNL T NL ++ [(n, qs.map fun q => pt 0 q)]
  | [], _, _, _, _ => rfl
  | p :: T, NL, n, qs, h => by
    rw [joinNL, joinNL, List.map_append, List.map_singleton]
    have : (qs.map fun q => pt 0 q).map (turnName p) = qs.map fun q => pt 0 q := by
      rw [List.map_map]
      exact List.map_congr_left fun q _ => turnName_of_ne (Or.inr ⟨rfl, h p (by simp)⟩)
    rw [this]
    exact joinNL_append fun p hp => h p (by simp [hp])

theorem joinNL_zero : ∀ {T : List (Nm × Nat)} {NL : List (Nm × List Nm)} {q : Nm}, (∀ p ∈ T, p.2 ≠ 0) → HasLeg NL (pt 0 q) → HasLeg (joinNL T NL) (pt 0 q)
  | [], _, _, _, h => h
  | p :: T, NL, q, hT, h => by
    rw [joinNL]
    refine joinNL_zero (fun p hp => hT p (by simp [hp])) ?_
    obtain ⟨x, hx, hq⟩ := h
    refine ⟨_, List.mem_map_of_mem hx, ?_⟩
    exact List.mem_map.2 ⟨_, hq, turnName_of_ne (Or.inr ⟨rfl, hT p (by simp)⟩)⟩

theorem clauseMeets_iff {S c : List Nm} : clauseMeets S c = true ↔ ∃ q ∈ c, q ∈ S := by simp [clauseMeets]

theorem mem_new {csp : List (List Nm)} {S0 : List Nm} {j : Nat} {q : Nm} (h1 : q ∈ coneSet csp S0 (j + 1)) (h2 : q ∉ coneSet csp S0 j) :
    ∃ c ∈ csp.filter (clauseMeets (coneSet csp S0 j)), q ∈ c := by
  rw [coneSet, List.mem_append, List.mem_dedup, List.mem_filter] at h1
  have := (h1.resolve_left h2).1
  rw [List.mem_flatten] at this
  exact this

theorem coneSet_grow {csp : List (List Nm)} {S0 : List Nm} {j : Nat} {c : List Nm} (hc : c ∈ csp.filter (clauseMeets (coneSet csp S0 j))) {q : Nm} (hq : q ∈ c) :
    q ∈ coneSet csp S0 (j + 1) := by
  rw [coneSet, List.mem_append, List.mem_dedup, List.mem_filter, decide_eq_true_eq]
  by_cases h : q ∈ coneSet csp S0 j
  · exact Or.inl h
  · exact Or.inr ⟨List.mem_flatten.2 ⟨c, hc, hq⟩, h⟩

/-- The legs of the rotations. -/
theorem hasLeg_rot {i : Nat} {qs : List Nm} {e : Nm} :
    HasLeg (rotNL i qs) e ↔ ∃ q ∈ qs, e = pt i q ∨ e = pt (-i) q ∨ e = pt ((i + 1 : Nat) : Int) q ∨ e = pt (-((i + 1 : Nat) : Int)) q := by
  have h1 : (-(((i + 1 : Nat)) : Int)) = -(i : Int) - 1 := by push_cast; omega
  rw [h1]
  unfold HasLeg rotNL
  simp only [List.mem_flatMap, List.mem_cons, List.not_mem_nil, or_false]
  constructor
  · rintro ⟨p, ⟨q, hq, rfl | rfl⟩, h⟩
    · simp only [List.mem_cons, List.not_mem_nil, or_false] at h
      exact ⟨q, hq, by push_cast; tauto⟩
    · simp only [List.mem_cons, List.not_mem_nil, or_false] at h
      exact ⟨q, hq, by push_cast; tauto⟩
  · rintro ⟨q, hq, h⟩
    push_cast at h
    rcases h with h | h | h | h
    · exact ⟨_, ⟨q, hq, Or.inl rfl⟩, by simp [h]⟩
    · exact ⟨_, ⟨q, hq, Or.inr rfl⟩, by simp [h]⟩
    · exact ⟨_, ⟨q, hq, Or.inl rfl⟩, by simp [h]⟩
    · exact ⟨_, ⟨q, hq, Or.inr rfl⟩, by simp [h]⟩

/-- The legs of the phases. -/
theorem hasLeg_phase {i : Nat} {cs : List (List Nm)} {e : Nm} :
    HasLeg (phaseNL i cs) e ↔ ∃ c ∈ cs, ∃ q ∈ c, e = pt ((i + 1 : Nat) : Int) q ∨ e = pt (-((i + 1 : Nat) : Int)) q := by
  have h1 : (-(((i + 1 : Nat)) : Int)) = -(i : Int) - 1 := by push_cast; omega
  rw [h1]
  unfold HasLeg phaseNL
  simp only [List.mem_flatMap, List.mem_cons, List.not_mem_nil, or_false]
  constructor
  · rintro ⟨p, ⟨c, hc, rfl | rfl⟩, h⟩
    · obtain ⟨q, hq, rfl⟩ := List.mem_map.1 h
      exact ⟨c, hc, q, hq, Or.inl (by push_cast; rfl)⟩
    · obtain ⟨q, hq, rfl⟩ := List.mem_map.1 h
      exact ⟨c, hc, q, hq, Or.inr rfl⟩
  · rintro ⟨c, hc, q, hq, h | h⟩
    · exact ⟨_, ⟨c, hc, Or.inl rfl⟩, List.mem_map.2 ⟨q, hq, by rw [h]; push_cast; rfl⟩⟩
    · exact ⟨_, ⟨c, hc, Or.inr rfl⟩, List.mem_map.2 ⟨q, hq, by rw [h]⟩⟩

/-- All legs are bits of the cone. -/
theorem leg_cone {perm : List Nm → List Nm} (hp : ∀ l, (perm l).Perm l) {csp : List (List Nm)} {S0 : List Nm} : ∀ {i : Nat} {e : Nm},
    HasLeg (coneNL perm csp S0 i) e → ∃ j ≤ i, ∃ q ∈ coneSet csp S0 j, e = pt j q ∨ e = pt (-j) q
  | 0, e, h => by obtain ⟨p, hp, _⟩ := h; simp [coneNL] at hp
  | i + 1, e, h => by
    rw [coneNL, hasLeg_append, hasLeg_append, hasLeg_rot, hasLeg_phase] at h
    rcases h with (h | ⟨q, hq, h⟩) | ⟨c, hc, q, hq, h⟩
    · obtain ⟨j, h1, h2⟩ := leg_cone hp h
      exact ⟨j, by omega, h2⟩
    · have hq := (hp _).mem_iff.1 hq
      rcases h with h | h | h | h
      · exact ⟨i, by omega, q, hq, Or.inl h⟩
      · exact ⟨i, by omega, q, hq, Or.inr h⟩
      · exact ⟨i + 1, le_refl _, q, coneSet_mono (Nat.le_succ i) hq, Or.inl h⟩
      · exact ⟨i + 1, le_refl _, q, coneSet_mono (Nat.le_succ i) hq, Or.inr h⟩
    · exact ⟨i + 1, le_refl _, q, coneSet_grow hc hq, h⟩

theorem cone_leg {perm : List Nm → List Nm} (hp : ∀ l, (perm l).Perm l) {csp : List (List Nm)} {S0 : List Nm} {i j : Nat} (hj : j < i) {q : Nm} (hq : q ∈ coneSet csp S0 j) :
    HasLeg (coneNL perm csp S0 i) (pt j q) ∧ HasLeg (coneNL perm csp S0 i) (pt (-j) q) ∧
    HasLeg (coneNL perm csp S0 i) (pt ((j + 1 : Nat) : Int) q) ∧ HasLeg (coneNL perm csp S0 i) (pt (-((j + 1 : Nat) : Int)) q) := by
  induction i with
  | zero => omega
  | succ i ih =>
    simp only [coneNL, hasLeg_append]
    by_cases h : j = i
    · subst h
      have : q ∈ perm (coneSet csp S0 j) := (hp _).mem_iff.2 hq
      simp only [hasLeg_rot]
      exact ⟨Or.inl (Or.inr ⟨q, this, by tauto⟩), Or.inl (Or.inr ⟨q, this, by tauto⟩), Or.inl (Or.inr ⟨q, this, by tauto⟩), Or.inl (Or.inr ⟨q, this, by tauto⟩)⟩
    · obtain ⟨h1, h2, h3, h4⟩ := ih (by omega)
      exact ⟨Or.inl (Or.inl h1), Or.inl (Or.inl h2), Or.inl (Or.inl h3), Or.inl (Or.inl h4)⟩

theorem turn_leg {perm : List Nm → List Nm} {csp : List (List Nm)} {S0 : List Nm} {i j : Nat} (hj : j < i) {q : Nm} (h1 : q ∈ coneSet csp S0 (j + 1))
    (h2 : q ∉ coneSet csp S0 j) : HasLeg (coneNL perm csp S0 i) (pt ((j + 1 : Nat) : Int) q) ∧ HasLeg (coneNL perm csp S0 i) (pt (-((j + 1 : Nat) : Int)) q) := by
  induction i with
  | zero => omega
  | succ i ih =>
    simp only [coneNL, hasLeg_append]
    by_cases h : j = i
    · subst h
      obtain ⟨c, hc, hq⟩ := mem_new h1 h2
      simp only [hasLeg_phase]
      exact ⟨Or.inr ⟨c, hc, q, hq, Or.inl rfl⟩, Or.inr ⟨c, hc, q, hq, Or.inr rfl⟩⟩
    · obtain ⟨h1, h2⟩ := ih (by omega)
      exact ⟨Or.inl (Or.inl h1), Or.inl (Or.inl h2)⟩

theorem Turns.ok {perm : List Nm → List Nm} (hp : ∀ l, (perm l).Perm l) {csp : List (List Nm)} {S0 : List Nm} {i : Nat} {T : Dict Nm Nat} (h : Turns csp S0 i T) {n : Nm} :
    TurnsOK T (coneNL perm csp S0 i) ∧ TurnsOK T (coneNL perm csp S0 i ++ [(n, S0.map fun q => pt 0 q)]) := by
  have hm := fun p (hp : p ∈ T) => (h.mem p.1 p.2).1 hp
  have h1 : TurnsOK T (coneNL perm csp S0 i) := by
    refine ⟨h.nodup, fun p hp => ?_, fun p hp => ?_, fun p hp => ?_, fun p hp' hc => ?_⟩
    · obtain ⟨j, _, h2, _⟩ := hm p hp; omega
    · obtain ⟨j, h1, h2, h3, h4⟩ := hm p hp
      rw [h2]; exact (turn_leg h1 h3 h4).1
    · obtain ⟨j, h1, h2, h3, h4⟩ := hm p hp
      rw [h2]; exact (turn_leg h1 h3 h4).2
    · obtain ⟨j, h1, h2, h3, h4⟩ := hm p hp'
      obtain ⟨j', _, q, hq, h | h⟩ := leg_cone hp hc
      · obtain ⟨h5, h6⟩ := pt_inj.1 h
        have : j' = 0 := by omega
        subst this
        exact h4 (coneSet_mono (Nat.zero_le j) (h6 ▸ hq))
      · obtain ⟨h5, h6⟩ := pt_inj.1 h
        have : j' = 0 := by omega
        subst this
        exact h4 (coneSet_mono (Nat.zero_le j) (h6 ▸ hq))
  refine ⟨h1, h1.nodup, h1.pos, fun p hp => hasLeg_append.2 (Or.inl (h1.ket p hp)), fun p hp => hasLeg_append.2 (Or.inl (h1.bra p hp)), fun p hp hc => ?_⟩
  rcases hasLeg_append.1 hc with hc | ⟨x, hx, hc⟩
  · exact h1.new p hp hc
  · simp only [List.mem_singleton] at hx
    subst hx
    simp only [List.mem_map, pt_inj, true_and, exists_eq_right] at hc
    obtain ⟨j, _, _, _, h4⟩ := hm p hp
    exact h4 (coneSet_mono (Nat.zero_le j) (List.mem_dedup.2 hc))

/-- The network `lightcone` builds. -/
theorem lightcone_ok [HasShape τ] {perm : List Nm → List Nm} (hp : ∀ l, (perm l).Perm l) {hole : τ} (hh : HasShape.shape hole = none)
    {csp : List (List Nm)} (hcsp : csp.Nodup) (S0 : List Nm) (L : Nat) :
    ∃ tn T, lightcone perm hole S0 csp L = .ok (tn, coneSet csp S0 L) ∧ Turns csp S0 L T ∧ Sketch (some 2) tn (joinNL T (coneNL perm csp S0 L)) := by
  obtain ⟨t1, T, h1, k1, l1⟩ := coneLayers_ok hp hh hcsp (S0 := S0) L 0 (tn := {}) (T := []) (Sketch.empty none) ⟨List.nodup_nil, fun q t => by simp⟩
  rw [Nat.zero_add] at *
  obtain ⟨t2, h2, k2⟩ := joins_ok (l1.ok hp (n := .nil)).1 k1
  obtain ⟨t3, h3, k3⟩ := k2.setDim 2
  refine ⟨t3, T, ?_, l1, k3⟩
  unfold lightcone
  have h1 : coneLayers perm hole csp L 0 ({}, S0.dedup, []) = .ok (t1, coneSet csp S0 L, T) := h1
  rw [h1]
  simp only [h2, h3]

/-- The network of a clause. -/
theorem clauseNet_ok [HasShape τ] {perm : List Nm → List Nm} (hp : ∀ l, (perm l).Perm l) {hole : τ} (hh : HasShape.shape hole = none)
    {csp : List (List Nm)} (hcsp : csp.Nodup) (clause : List Nm) {L : Nat} (hL : 0 < L) :
    ∃ tn T, clauseNet perm hole csp L clause = .ok (tn, (coneSet csp clause L).length) ∧ Turns csp clause L T ∧
      Sketch (some 2) tn (joinNL T (coneNL perm csp clause L ++ [(pt 0 (Nm.ofList clause), clause.map fun q => pt 0 q)])) := by
  obtain ⟨t1, T, h1, k1, l1⟩ := lightcone_ok hp hh hcsp clause L
  have hT := k1.ok hp (n := .nil)
  obtain ⟨t2, h2, k2⟩ := l1.addNode hh (n := pt 0 (Nm.ofList clause)) (ident := .int 0) (es := clause.map fun q => pt 0 q) (by
    rw [joinNL_names]
    intro hc
    obtain ⟨k, x, h1, h2, _⟩ := coneNL_bound hc
    exact h2 (pt_inj.1 h1).1.symm) (Or.inr fun e he => by
    obtain ⟨q, hq, rfl⟩ := List.mem_map.1 he
    refine joinNL_zero hT.1.pos ?_
    have := (cone_leg hp hL (csp := csp) (q := q) (S0 := clause) (List.mem_dedup.2 hq)).1
    simpa using this)
  refine ⟨t2, T, ?_, k1, by rw [joinNL_append hT.1.pos]; exact k2⟩
  unfold clauseNet
  rw [h1]
  simp only [h2]

end Verif
