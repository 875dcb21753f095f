import Verif.Lemmas.Merge
import Verif.Lemmas.FixShort
import Verif.Lemmas.Evolve
import Verif.Spec.Total
import Verif.Spec.Expand
/-!
# `expand`: identifying edges, inserting a network
-/

set_option linter.unusedSectionVars false

namespace Verif

section
variable {E : Type} [DecidableEq E] {R : Type} [CommSemiring R]

/-- Summing over assignments that are constant on `K` is summing with all of `K` replaced by one of its members. -/
theorem sumOver_identify {dom dom' : E → Finset Nat} {l l' K : List E} {m : E} (hl : l.Nodup) (hl' : l'.Nodup)
    (hK : K.Nodup) (hKl : ∀ e ∈ K, e ∈ l) (hm : m ∈ K) (hmem : ∀ e, e ∈ l' ↔ e ∈ l ∧ (e = m ∨ e ∉ K))
    (hdm : ∀ x, x ∈ dom' m ↔ ∀ e ∈ K, x ∈ dom e) (hd : ∀ e ∈ l, e ∉ K → dom' e = dom e) {F : (E → Nat) → R}
    (hF : DependsOn F l) (a0 a1 : E → Nat) :
    sumOver dom l (fun a => if ∀ x ∈ K, ∀ y ∈ K, a x = a y then F a else 0) a0 =
      sumOver dom' l' (fun b => F (fun e => b (if e ∈ K then m else e))) a1 := by
  classical
  let rest := l.filter fun e => e ∉ K
  have hrn : rest.Nodup := hl.filter _
  have hrm : ∀ e, e ∈ rest ↔ e ∈ l ∧ e ∉ K := fun e => by simp [rest]
  have hmr : m ∉ rest := fun h => ((hrm m).1 h).2 hm
  have hp : l.Perm (K ++ rest) := by
    refine perm_of_nodup_mem hl ?_ fun e => ?_
    · rw [List.nodup_append]
      exact ⟨hK, hrn, fun a ha b hb hab => ((hrm b).1 hb).2 (hab ▸ ha)⟩
    · rw [List.mem_append, hrm]
      constructor
      · intro h
        by_cases hc : e ∈ K
        · exact Or.inl hc
        · exact Or.inr ⟨h, hc⟩
      · rintro (h | h)
        · exact hKl e h
        · exact h.1
  have hp' : l'.Perm (m :: rest) := by
    refine perm_of_nodup_mem hl' (List.nodup_cons.2 ⟨hmr, hrn⟩) fun e => ?_
    rw [hmem, List.mem_cons, hrm]
    constructor
    · rintro ⟨h1, h2 | h2⟩
      · exact Or.inl h2
      · exact Or.inr ⟨h1, h2⟩
    · rintro (h | h)
      · exact ⟨h ▸ hKl m hm, Or.inl h⟩
      · exact ⟨h.1, Or.inr h.2⟩
  rw [sumOver_perm hp, sumOver_perm hp', sumOver_append, sumOver_cons]
  have h1 : ∀ b : E → Nat, sumOver dom rest (fun a => if ∀ x ∈ K, ∀ y ∈ K, a x = a y then F a else 0) b =
      copyTen R (K.map b) * sumOver dom rest F b := by
    intro b
    rw [← sumOver_mul_left (g := fun b => copyTen R (K.map b))]
    · refine sumOver_congr fun c => ?_
      unfold copyTen
      by_cases hc : ∀ x ∈ K, ∀ y ∈ K, c x = c y
      · rw [if_pos hc, if_pos, one_mul]
        intro x hx y hy
        obtain ⟨e, he, rfl⟩ := List.mem_map.1 hx
        obtain ⟨e', he', rfl⟩ := List.mem_map.1 hy
        exact hc e he e' he'
      · rw [if_neg hc, if_neg, zero_mul]
        exact fun h => hc fun e he e' he' => h _ (List.mem_map.2 ⟨e, he, rfl⟩) _ (List.mem_map.2 ⟨e', he', rfl⟩)
    · intro c hc
      show copyTen R (K.map c) = copyTen R (K.map b)
      congr 1
      exact List.map_congr_left fun e he => hc.1 e fun h => ((hrm e).1 h).2 he
  simp only [h1]
  rw [sumOver_copy hK hm _ _ hdm]
  refine Finset.sum_congr rfl fun x _ => ?_
  rw [sumOver_rename (ρ := fun e => if e ∈ K then m else e), sumOver_dom_congr (dom := dom') (dom' := dom)]
  · refine (sumOver_base_dep hF fun e he her => ?_)
    have heK : e ∈ K := by
      by_contra hc
      exact her ((hrm e).2 ⟨he, hc⟩)
    simp [heK]
  · intro e he
    exact hd e ((hrm e).1 he).1 ((hrm e).1 he).2
  · intro e he e'
    by_cases h : e' ∈ K
    · simp only [if_pos h]
      exact ⟨fun h1 => absurd (h1 ▸ he) hmr, fun h1 => absurd h (h1 ▸ ((hrm e).1 he).2)⟩
    · simp only [if_neg h]

end

namespace TN

variable {τ : Type} {R : Type} [CommSemiring R]

/-- `total` restricted to assignments that are constant on each of the given sets of edges. -/
def guarded (val : τ → List Nat → R) (tn : TN τ) (Cs : List (List Nm)) (idx : List Nat) : R :=
  sumOver tn.dom tn.edges.keys (fun a => if ∀ C ∈ Cs, ∀ x ∈ C, ∀ y ∈ C, a x = a y then
    (if tn.openE.map a = idx then prodAt (tn.factors val) a else 0) else 0) fun _ => 0

theorem guarded_nil (val : τ → List Nat → R) (tn : TN τ) (idx : List Nat) : tn.guarded val [] idx = tn.total val idx := by
  unfold guarded total
  refine sumOver_congr fun b => if_pos (by simp)

/-- `tn'` is `tn` with its edges renamed (identified) along `ρ`. -/
structure Ren (tn tn' : TN τ) (ρ : Nm → Nm) : Prop where
  keys : tn'.nodes.keys = tn.nodes.keys
  node : ∀ n r, tn.nodes.get? n = some r → ∃ r', tn'.nodes.get? n = some r' ∧ r'.ten = r.ten ∧ r'.legs = r.legs.map ρ
  opn : tn'.openE = tn.openE.map ρ
  edge : ∀ e ∈ tn.edges.keys, ρ e ∈ tn'.edges.keys ∧ tn'.edim (ρ e) = tn.edim e
  sub : ∀ e ∈ tn'.edges.keys, e ∈ tn.edges.keys
  self : ∀ e ∈ tn'.edges.keys, ρ e = e
  short : tn.FixShort → tn'.FixShort ∧ ∀ e, tn.IsFixed e → tn'.IsFixed (ρ e)

theorem Ren.refl (tn : TN τ) : Ren tn tn id :=
  ⟨rfl, fun _ r h => ⟨r, h, rfl, (List.map_id _).symm⟩, (List.map_id _).symm, fun _ h => ⟨h, rfl⟩, fun _ h => h,
    fun _ _ => rfl, fun h => ⟨h, fun _ h => h⟩⟩

theorem Ren.trans {a b c : TN τ} {ρ σ : Nm → Nm} (h : Ren a b ρ) (h' : Ren b c σ) : Ren a c (σ ∘ ρ) where
  keys := h'.keys.trans h.keys
  node := fun n r hr => by
    obtain ⟨r1, a1, a2, a3⟩ := h.node n r hr
    obtain ⟨r2, b1, b2, b3⟩ := h'.node n r1 a1
    exact ⟨r2, b1, b2.trans a2, by rw [b3, a3, List.map_map]⟩
  opn := by rw [h'.opn, h.opn, List.map_map]
  edge := fun e he => by
    obtain ⟨a1, a2⟩ := h.edge e he
    obtain ⟨b1, b2⟩ := h'.edge _ a1
    exact ⟨b1, b2.trans a2⟩
  sub := fun e he => h.sub e (h'.sub e he)
  self := fun e he => by
    show σ (ρ e) = e
    rw [h.self e (h'.sub e he), h'.self e he]
  short := fun hs => by
    obtain ⟨a1, a2⟩ := h.short hs
    obtain ⟨b1, b2⟩ := h'.short a1
    exact ⟨b1, fun e he => b2 _ (a2 e he)⟩

/-- Merging one set of edges. -/
theorem merge_guarded {tn : TN τ} (hc : tn.Consistent) (hz : tn.Sized) {C : List Nm} {m : Nm} (hm : m ∈ C) (hn : C.Nodup)
    (hC : ∀ e ∈ C, e ∈ tn.edges.keys) (hd : ∀ e ∈ C, tn.edim e = tn.edim m) {Cs : List (List Nm)}
    (hdis : ∀ D ∈ Cs, ∀ e ∈ D, e ∉ C) (hDs : ∀ D ∈ Cs, ∀ e ∈ D, e ∈ tn.edges.keys) :
    ∃ tn', tn.mergeEdges C (some m) none = (tn', .ok m) ∧ tn'.Consistent ∧ tn'.Sized ∧
      Ren tn tn' (fun e => if e ∈ C then m else e) ∧ (∀ e ∈ tn.edges.keys, e ∉ C → e ∈ tn'.edges.keys) ∧
      ∀ (val : τ → List Nat → R) (idx : List Nat), tn'.guarded val Cs idx = tn.guarded val (C :: Cs) idx := by
  obtain ⟨rm, hrm⟩ := Dict.exists_get? (hC m hm)
  obtain ⟨d, hd1, hd2⟩ := hz m rm hrm
  have hmo : tn.edim m = some d := by unfold edim; rw [hrm]; exact hd1
  have hok : MergeOK tn C (some m) none m d := by
    refine ⟨fun h => by rw [h] at hm; simp at hm, hn, fun e he => ?_, Or.inl rfl, fun r hr => ?_⟩
    · obtain ⟨r, hr⟩ := Dict.exists_get? (hC e he)
      obtain ⟨d', h1, h2⟩ := hz e r hr
      have := hd e he
      rw [hmo] at this
      unfold edim at this
      rw [hr] at this
      have h3 : r.dim = some d := this
      rw [h1] at h3
      cases h3
      exact ⟨r, hr, h1, h2⟩
    · rw [hrm] at hr; cases hr; exact ⟨hd1, hd2⟩
  obtain ⟨tn', rm', touched, t1, t2, t3, t4, t5, t6, t7, t8⟩ := mergeEdges_total hc hok
  have hcon : tn'.Consistent := Consistent.mergeEdges hc t1
  set ρ : Nm → Nm := fun e => if e ∈ C then m else e with hρ
  have hkeys : ∀ e, e ∈ tn'.edges.keys ↔ e ∈ tn.edges.keys ∧ (e = m ∨ e ∉ C) := by
    intro e
    by_cases he : e = m
    · subst he
      exact ⟨fun _ => ⟨hC e hm, Or.inl rfl⟩, fun _ => Dict.mem_keys_of_get? t5⟩
    · rw [← Dict.get?_isSome, t8 e he]
      by_cases h : e ∈ C
      · simp [h, he]
      · rw [if_neg h, Dict.get?_isSome]; simp [h]
  have hnode : ∀ n r, tn.nodes.get? n = some r →
      tn'.nodes.get? n = some (if touched n then renameLegs C m r else r) ∧
      (if touched n then renameLegs C m r else r).ten = r.ten ∧
      (if touched n then renameLegs C m r else r).legs = r.legs.map ρ := by
    intro n r hr
    refine ⟨?_, ?_, ?_⟩
    · rw [t3, Dict.get?_mapIf, hr]; rfl
    · split <;> rfl
    · split
      · rfl
      · rename_i ht
        refine ((List.map_congr_left fun e he => ?_).trans (List.map_id _)).symm
        simp only [hρ]
        rw [if_neg fun h => ht ((t2 n).2 ⟨e, h, (hc.adj_iff n e).2 ⟨r, hr, he⟩⟩)]; rfl
  have hren : Ren tn tn' ρ := by
    refine ⟨by rw [t3, Dict.keys_mapIf], fun n r hr => ⟨_, hnode n r hr⟩, t4, fun e he => ?_, fun e he => ((hkeys e).1 he).1,
      fun e he => ?_, mergeEdges_short (hC m hm) t1⟩
    rotate_left
    · rcases ((hkeys e).1 he).2 with h | h
      · simp only [hρ, h, ite_self]
      · simp only [hρ, if_neg h]
    simp only [hρ]
    by_cases h : e ∈ C
    · rw [if_pos h, hd e h, hmo]
      exact ⟨Dict.mem_keys_of_get? t5, by unfold edim; rw [t5]; exact t6⟩
    · rw [if_neg h]
      have hne : e ≠ m := fun hc => h (hc ▸ hm)
      exact ⟨(hkeys e).2 ⟨he, Or.inr h⟩, by unfold edim; rw [t8 e hne, if_neg h]⟩
  refine ⟨tn', t1, hcon, fun e r hr => ?_, hren, fun e h1 h2 => (hkeys e).2 ⟨h1, Or.inr h2⟩, fun val idx => ?_⟩
  · by_cases he : e = m
    · subst he
      rw [t5] at hr; cases hr
      refine ⟨d, t6, fun f hf v hv => ((t7 v).1 ?_).1⟩
      simpa [EdgeRec.dom, hf] using hv
    · rw [t8 e he] at hr
      split at hr
      · cases hr
      · exact hz e r hr
  · have hdom : ∀ e ∈ tn.edges.keys, e ∉ C → tn'.dom e = tn.dom e := by
      intro e _ he
      have hne : e ≠ m := fun hc => he (hc ▸ hm)
      unfold TN.dom; rw [t8 e hne, if_neg he]
    have hdm : ∀ x, x ∈ tn'.dom m ↔ ∀ e ∈ C, x ∈ tn.dom e := by
      intro x
      have h1 : tn'.dom m = rm'.dom := by unfold TN.dom; rw [t5]
      rw [h1, t7]
      constructor
      · rintro ⟨_, _, h⟩ e he
        obtain ⟨r, hr⟩ := Dict.exists_get? (hC e he)
        have := h e he r hr
        unfold TN.dom; rw [hr]; exact this
      · intro h
        have hx : ∀ e ∈ C, ∀ r, tn.edges.get? e = some r → x ∈ r.dom := by
          intro e he r hr
          have := h e he
          unfold TN.dom at this; rw [hr] at this; exact this
        refine ⟨?_, fun r hr => hx m hm r hr, hx⟩
        have := hx m hm rm hrm
        unfold EdgeRec.dom at this
        cases hf : rm.fix with
        | none => rw [hf] at this; simpa [hd1] using this
        | some f => rw [hf] at this; exact hd2 f hf x (by simpa using this)
    have hfac : ∀ b : Nm → Nat, prodAt (tn'.factors val) b = prodAt (tn.factors val) fun e => b (ρ e) := by
      intro b
      unfold TN.factors prodAt
      rw [t3]
      unfold Dict.mapIf
      simp only [List.map_map]
      congr 1
      refine List.map_congr_left fun p hp => ?_
      obtain ⟨h1, h2, h3⟩ := hnode p.1 p.2 (Dict.get?_of_mem hc.nodes_nodup hp)
      simp only [Function.comp, Factor.at, NodeRec.factor]
      rw [h2, h3, List.map_map]; rfl
    unfold guarded
    have hdep : DependsOn (fun a : Nm → Nat => if ∀ D ∈ Cs, ∀ x ∈ D, ∀ y ∈ D, a x = a y then
        (if tn.openE.map a = idx then prodAt (tn.factors val) a else 0) else 0) tn.edges.keys := by
      intro a b hab
      have h1 : tn.openE.map a = tn.openE.map b := List.map_congr_left fun e he => hab e (hc.open_exist e he)
      have h2 : prodAt (tn.factors val) a = prodAt (tn.factors val) b := prodAt_dependsOn _ a b fun e he => hab e (by
        obtain ⟨f, hf, hef⟩ := List.mem_flatMap.1 he
        obtain ⟨p, hp, rfl⟩ := List.mem_map.1 hf
        exact hc.legs_exist p.1 p.2 (Dict.get?_of_mem hc.nodes_nodup hp) e hef)
      show (if _ then _ else _) = if _ then _ else _
      rw [h1, h2]
      refine if_congr ?_ rfl rfl
      refine forall₂_congr fun D hD => forall₂_congr fun x hx => forall₂_congr fun y hy => ?_
      rw [hab x (hDs D hD x hx), hab y (hDs D hD y hy)]
    have hid := sumOver_identify (dom := tn.dom) (dom' := tn'.dom) hc.edges_nodup hcon.edges_nodup hn hC hm hkeys hdm hdom hdep
      (fun _ => 0) (fun _ => 0)
    refine Eq.trans (Eq.trans ?_ hid.symm) ?_
    · refine sumOver_congr fun b => ?_
      rw [hfac, t4, List.map_map]
      refine if_congr ?_ rfl rfl
      refine forall₂_congr fun D hD => forall₂_congr fun x hx => forall₂_congr fun y hy => ?_
      show _ ↔ b (if x ∈ C then m else x) = b (if y ∈ C then m else y)
      rw [if_neg (hdis D hD x hx), if_neg (hdis D hD y hy)]
    · refine sumOver_congr fun b => ?_
      by_cases h : ∀ x ∈ C, ∀ y ∈ C, b x = b y
      · rw [if_pos h]
        refine if_congr ?_ rfl rfl
        simp only [List.mem_cons, forall_eq_or_imp]
        exact ⟨fun h' => ⟨h, h'⟩, fun h' => h'.2⟩
      · rw [if_neg h, if_neg]
        exact fun h' => h (h' C List.mem_cons_self)

theorem eqvGen_const {A B : Type} {r : A → A → Prop} {f : A → B} (h : ∀ a b, r a b → f a = f b) {x y : A}
    (hxy : Relation.EqvGen r x y) : f x = f y := by
  induction hxy with
  | rel a b hab => exact h a b hab
  | refl => rfl
  | symm _ _ _ ih => exact ih.symm
  | trans _ _ _ _ _ ih1 ih2 => exact ih1.trans ih2

/-- Every component contains a leg of the replaced node. -/
theorem Glue.Sound.meets {G : Glue} (hG : G.Sound) {links : List (Nm × Nm)} {C : List Nm} (hC : C ∈ G.comps links) :
    ∃ p ∈ links, p.1 ∈ C := by
  obtain ⟨x, hx⟩ := List.exists_mem_of_ne_nil C (hG.nonempty links C hC)
  obtain ⟨p, hp, h⟩ := hG.ends links C hC x hx
  obtain ⟨D, hD, h1, h2⟩ := hG.cover links p hp
  have hxD : x ∈ D := by rcases h with rfl | rfl <;> assumption
  have : C = D := by
    by_contra hne
    have hs : Std.Symm fun C D : List Nm => ∀ x ∈ C, x ∉ D := ⟨fun C D h x hx hx' => h x hx' hx⟩
    exact (hG.disjoint links).forall hC hD hne x hx hxD
  exact ⟨p, hp, this ▸ h1⟩

/-- A function is constant on the components if it takes the same value at both ends of every link. -/
theorem Glue.Sound.const_iff {G : Glue} (hG : G.Sound) {links : List (Nm × Nm)} {B : Type} (f : Nm → B) :
    (∀ C ∈ G.comps links, ∀ x ∈ C, ∀ y ∈ C, f x = f y) ↔ ∀ p ∈ links, f p.1 = f p.2 := by
  constructor
  · intro h p hp
    obtain ⟨C, hC, h1, h2⟩ := hG.cover links p hp
    exact h C hC _ h1 _ h2
  · intro h C hC x hx y hy
    exact eqvGen_const (fun a b hab => h (a, b) hab) (hG.connected links C hC x hx y hy)

/-- The loop over the components. -/
theorem glue_guarded {G : Glue} (hG : G.Sound) {legs : List Nm} {Cs : List (List Nm)} {tn : TN τ} (hc : tn.Consistent)
    (hz : tn.Sized) (hn : ∀ C ∈ Cs, C.Nodup) (hm : ∀ C ∈ Cs, ∃ e ∈ C, e ∈ legs)
    (hd : Cs.Pairwise fun C D => ∀ x ∈ C, x ∉ D) (he : ∀ C ∈ Cs, ∀ e ∈ C, e ∈ tn.edges.keys)
    (hs : ∀ C ∈ Cs, ∀ x ∈ C, ∀ y ∈ C, tn.edim x = tn.edim y) :
    ∃ tn' ρ, forLoop (glue1 G legs) Cs tn = (tn', .ok ()) ∧ tn'.Consistent ∧ tn'.Sized ∧ Ren tn tn' ρ ∧
      (∀ C ∈ Cs, ∀ x ∈ C, ∀ y ∈ C, ρ x = ρ y) ∧
      ((∀ x, (∀ C ∈ Cs, x ∉ C) → ρ x = x) ∧ ∀ C ∈ Cs, ∀ x ∈ C, ρ x ∈ legs) ∧
      ∀ (val : τ → List Nat → R) (idx : List Nat), tn'.total val idx = tn.guarded val Cs idx := by
  induction Cs generalizing tn with
  | nil => exact ⟨tn, id, rfl, hc, hz, Ren.refl tn, by simp, by simp, fun val idx => (guarded_nil val tn idx).symm⟩
  | cons C Cs ih =>
    have hne : C.filter (· ∈ legs) ≠ [] := by
      obtain ⟨e, h1, h2⟩ := hm C List.mem_cons_self
      exact List.ne_nil_of_mem (List.mem_filter.2 ⟨h1, decide_eq_true h2⟩)
    obtain ⟨m, hmC, hl⟩ := hG.last _ hne
    have hml : m ∈ legs := by simpa using (List.mem_filter.1 hmC).2
    have hmC := (List.mem_filter.1 hmC).1
    rw [List.pairwise_cons] at hd
    obtain ⟨t1, a1, a2, a3, a4, a5, a6⟩ := merge_guarded (R := R) hc hz hmC (hn C List.mem_cons_self)
      (he C List.mem_cons_self) (fun e h => hs C List.mem_cons_self e h m hmC)
      (Cs := Cs) (fun D hD e heD hec => hd.1 D hD e hec heD) (fun D hD => he D (List.mem_cons_of_mem _ hD))
    have hnot : ∀ D ∈ Cs, ∀ e ∈ D, e ∉ C := fun D hD e heD hec => hd.1 D hD e hec heD
    have hdim : ∀ D ∈ Cs, ∀ e ∈ D, t1.edim e = tn.edim e := by
      intro D hD e heD
      have := (a4.edge e (he D (List.mem_cons_of_mem _ hD) e heD)).2
      simpa only [if_neg (hnot D hD e heD)] using this
    obtain ⟨t2, ρ, b1, b2, b3, b4, b6, ⟨b7, b8⟩, b5⟩ := ih a2 a3 (fun D hD => hn D (List.mem_cons_of_mem _ hD))
      (fun D hD => hm D (List.mem_cons_of_mem _ hD)) hd.2
      (fun D hD e heD => a5 e (he D (List.mem_cons_of_mem _ hD) e heD) (hnot D hD e heD))
      (fun D hD x hx y hy => by
        rw [hdim D hD x hx, hdim D hD y hy]; exact hs D (List.mem_cons_of_mem _ hD) x hx y hy)
    refine ⟨t2, _, ?_, b2, b3, a4.trans b4, fun D hD x hx y hy => ?_, ⟨fun x hx => ?_, fun D hD x hx => ?_⟩,
      fun val idx => (b5 val idx).trans (a6 val idx)⟩
    rotate_left
    · simp only [Function.comp]
      rcases List.mem_cons.1 hD with rfl | hD
      · rw [if_pos hx, if_pos hy]
      · rw [if_neg (hnot D hD x hx), if_neg (hnot D hD y hy)]
        exact b6 D hD x hx y hy
    · simp only [Function.comp]
      rw [if_neg (hx C List.mem_cons_self)]
      exact b7 x fun D hD => hx D (List.mem_cons_of_mem _ hD)
    · simp only [Function.comp]
      rcases List.mem_cons.1 hD with rfl | hD
      · rw [if_pos hx, b7 m fun E hE => hd.1 E hE m hmC]
        exact hml
      · rw [if_neg (hnot D hD x hx)]
        exact b8 D hD x hx
    unfold forLoop
    have : glue1 G legs tn C = (t1, .ok ()) := by
      unfold glue1
      simp only [hl, a1]
    · rw [this]
      exact b1

theorem foldl_put {K V : Type} [DecidableEq K] (over : V → V → V) (d d' : Dict K V) (hn : d'.keys.Nodup)
    (hd : ∀ k ∈ d'.keys, k ∉ d.keys) : d'.foldl (fun d p => d.put over p.1 p.2) d = d ++ d' := by
  induction d' generalizing d with
  | nil => simp
  | cons p d' ih =>
    obtain ⟨k, v⟩ := p
    have hk : k ∉ d.keys := hd k (by simp [Dict.keys])
    have hn' := List.nodup_cons.1 (show (k :: Dict.keys d').Nodup from hn)
    have h1 : d.put over k v = d ++ [(k, v)] := by
      unfold Dict.put
      rw [Dict.get?_eq_none.2 hk]
      exact Dict.set_eq_append hk v
    rw [List.foldl_cons, h1, ih _ hn'.2]
    · simp
    · intro k' hk'
      rw [Dict.keys_append, List.mem_append, not_or]
      refine ⟨hd k' (List.mem_cons_of_mem _ hk'), ?_⟩
      intro h
      have : k' = k := by simpa [Dict.keys] using h
      exact hn'.1 (this ▸ hk')

theorem addAdjs_append {l l' : List (Nm × Nm)} (hn : l'.Nodup) (hd : ∀ p ∈ l', p ∉ l) : addAdjs l l' = l ++ l' := by
  unfold addAdjs
  induction l' generalizing l with
  | nil => simp
  | cons p l' ih =>
    rw [List.nodup_cons] at hn
    have : addAdj l p = l ++ [p] := if_neg (hd p List.mem_cons_self)
    rw [List.foldl_cons, this, ih hn.2]
    · simp
    · intro q hq h
      rcases List.mem_append.1 h with h | h
      · exact hd q (List.mem_cons_of_mem _ hq) h
      · exact hn.1 (List.mem_singleton.1 h ▸ hq)

/-- The two networks share no name. -/
structure Apart (tn t : TN τ) : Prop where
  nodes : ∀ n ∈ t.nodes.keys, n ∉ tn.nodes.keys
  edges : ∀ e ∈ t.edges.keys, e ∉ tn.edges.keys

theorem graft_eq {tn t : TN τ} (hc : tn.Consistent) (ht : t.Consistent) (ha : Apart tn t) :
    tn.graft t = { tn with nodes := tn.nodes ++ t.nodes, edges := tn.edges ++ t.edges, adj := tn.adj ++ t.adj } := by
  unfold graft
  rw [foldl_put _ _ _ ht.nodes_nodup ha.nodes, foldl_put _ _ _ ht.edges_nodup ha.edges, addAdjs_append ht.adj_nodup]
  rintro ⟨n, e⟩ h1 h2
  obtain ⟨r, hr, _⟩ := (ht.adj_iff n e).1 h1
  obtain ⟨r', hr', _⟩ := (hc.adj_iff n e).1 h2
  exact ha.nodes n (Dict.mem_keys_of_get? hr) (Dict.mem_keys_of_get? hr')

theorem graft_node {tn t : TN τ} (hc : tn.Consistent) (ht : t.Consistent) (ha : Apart tn t) {n : Nm} {r : NodeRec τ} :
    (tn.graft t).nodes.get? n = some r ↔ tn.nodes.get? n = some r ∨ t.nodes.get? n = some r := by
  rw [graft_eq hc ht ha]
  show Dict.get? (tn.nodes ++ t.nodes) n = _ ↔ _
  rw [Dict.get?_append]
  cases h : tn.nodes.get? n with
  | none => simp
  | some r' =>
    have : t.nodes.get? n = none := Dict.get?_eq_none.2 fun h' => ha.nodes n h' (Dict.mem_keys_of_get? h)
    simp [this]

theorem graft_edge_left {tn t : TN τ} (hc : tn.Consistent) (ht : t.Consistent) (ha : Apart tn t) {e : Nm}
    (he : e ∈ tn.edges.keys) : (tn.graft t).edges.get? e = tn.edges.get? e := by
  rw [graft_eq hc ht ha]
  show Dict.get? (tn.edges ++ t.edges) e = _
  obtain ⟨r, hr⟩ := Dict.exists_get? he
  rw [Dict.get?_append, hr]; rfl

theorem graft_edge_right {tn t : TN τ} (hc : tn.Consistent) (ht : t.Consistent) (ha : Apart tn t) {e : Nm}
    (he : e ∈ t.edges.keys) : (tn.graft t).edges.get? e = t.edges.get? e := by
  rw [graft_eq hc ht ha]
  show Dict.get? (tn.edges ++ t.edges) e = _
  rw [Dict.get?_append, Dict.get?_eq_none.2 (ha.edges e he)]; rfl

theorem graft_edges {tn t : TN τ} (hc : tn.Consistent) (ht : t.Consistent) (ha : Apart tn t) :
    (tn.graft t).edges.keys = tn.edges.keys ++ t.edges.keys := by
  rw [graft_eq hc ht ha]
  exact Dict.keys_append _ _

theorem Consistent.graft {tn t : TN τ} (hc : tn.Consistent) (ht : t.Consistent) (ha : Apart tn t) :
    (tn.graft t).Consistent where
  nodes_nodup := by
    rw [graft_eq hc ht ha]
    show (Dict.keys (tn.nodes ++ t.nodes)).Nodup
    rw [Dict.keys_append, List.nodup_append]
    exact ⟨hc.nodes_nodup, ht.nodes_nodup, fun a h1 b h2 hab => ha.nodes b h2 (hab ▸ h1)⟩
  edges_nodup := by
    rw [graft_edges hc ht ha, List.nodup_append]
    exact ⟨hc.edges_nodup, ht.edges_nodup, fun a h1 b h2 hab => ha.edges b h2 (hab ▸ h1)⟩
  legs_exist := fun n r hr e he => by
    rw [graft_edges hc ht ha, List.mem_append]
    rcases (graft_node hc ht ha).1 hr with h | h
    · exact Or.inl (hc.legs_exist n r h e he)
    · exact Or.inr (ht.legs_exist n r h e he)
  open_exist := fun e he => by
    rw [graft_edges hc ht ha, List.mem_append]
    rw [graft_eq hc ht ha] at he
    exact Or.inl (hc.open_exist e he)
  adj_iff := fun n e => by
    have h1 : (n, e) ∈ (tn.graft t).adj ↔ (n, e) ∈ tn.adj ∨ (n, e) ∈ t.adj := by
      rw [graft_eq hc ht ha]; exact List.mem_append
    rw [h1, hc.adj_iff, ht.adj_iff]
    constructor
    · rintro (⟨r, hr, he⟩ | ⟨r, hr, he⟩)
      · exact ⟨r, (graft_node hc ht ha).2 (Or.inl hr), he⟩
      · exact ⟨r, (graft_node hc ht ha).2 (Or.inr hr), he⟩
    · rintro ⟨r, hr, he⟩
      rcases (graft_node hc ht ha).1 hr with h | h
      · exact Or.inl ⟨r, h, he⟩
      · exact Or.inr ⟨r, h, he⟩
  adj_nodup := by
    rw [graft_eq hc ht ha]
    show (tn.adj ++ t.adj).Nodup
    rw [List.nodup_append]
    refine ⟨hc.adj_nodup, ht.adj_nodup, ?_⟩
    rintro ⟨n, e⟩ h1 ⟨n', e'⟩ h2 hab
    cases hab
    obtain ⟨r, hr, _⟩ := (ht.adj_iff n e).1 h2
    obtain ⟨r', hr', _⟩ := (hc.adj_iff n e).1 h1
    exact ha.nodes n (Dict.mem_keys_of_get? hr) (Dict.mem_keys_of_get? hr')

theorem Sized.graft {tn t : TN τ} (hc : tn.Consistent) (ht : t.Consistent) (ha : Apart tn t) (hz : tn.Sized)
    (hz' : t.Sized) : (tn.graft t).Sized := by
  intro e r hr
  have he := Dict.mem_keys_of_get? hr
  rw [graft_edges hc ht ha, List.mem_append] at he
  rcases he with he | he
  · rw [graft_edge_left hc ht ha he] at hr; exact hz e r hr
  · rw [graft_edge_right hc ht ha he] at hr; exact hz' e r hr

theorem map_eq_iff_zip {A B C : Type} {l : List A} {l' : List B} (h : l.length = l'.length) (f : A → C) (g : B → C) :
    l'.map g = l.map f ↔ ∀ p ∈ l.zip l', f p.1 = g p.2 := by
  induction l generalizing l' with
  | nil =>
    have : l' = [] := List.length_eq_zero_iff.1 h.symm
    simp [this]
  | cons a l ih =>
    cases l' with
    | nil => simp at h
    | cons b l' =>
      have h' : l.length = l'.length := by simpa using h
      simp only [List.map_cons, List.cons.injEq, List.zip_cons_cons, List.forall_mem_cons, ih h']
      exact and_congr_left' eq_comm

theorem factors_dependsOn {tn : TN τ} (hc : tn.Consistent) (val : τ → List Nat → R) :
    DependsOn (prodAt (tn.factors val)) tn.edges.keys := by
  intro a b hab
  refine prodAt_dependsOn _ a b fun e he => hab e ?_
  obtain ⟨f, hf, hef⟩ := List.mem_flatMap.1 he
  obtain ⟨p, hp, rfl⟩ := List.mem_map.1 hf
  exact hc.legs_exist p.1 p.2 (Dict.get?_of_mem hc.nodes_nodup hp) e hef

/-- Putting network `t` in the place of a node with the given legs. -/
theorem insertNet_total {G : Glue} (hG : G.Sound) {tn t : TN τ} {legs : List Nm} (hc : tn.Consistent) (ht : t.Consistent)
    (ha : Apart tn t) (hz : tn.Sized) (hz' : t.Sized) (hl : ∀ e ∈ legs, e ∈ tn.edges.keys)
    (hd : legs.map tn.edim = t.openE.map t.edim) :
    ∃ tn' ρ, tn.insertNet G t legs = (tn', .ok ()) ∧ tn'.Consistent ∧ tn'.Sized ∧ Ren (tn.graft t) tn' ρ ∧
      (∀ p ∈ legs.zip t.openE, ρ p.1 = ρ p.2) ∧ (∀ e ∈ t.openE, e ∉ tn'.edges.keys) ∧
      ∀ (val : τ → List Nat → R) (idx : List Nat), tn'.total val idx =
        sumOver tn.dom tn.edges.keys (fun a => if tn.openE.map a = idx then
          prodAt (tn.factors val) a * t.total val (legs.map a) else 0) fun _ => 0 := by
  have hlen : legs.length = t.openE.length := by simpa using congrArg List.length hd
  have hgc := hc.graft ht ha
  have hdimL : ∀ e ∈ tn.edges.keys, (tn.graft t).edim e = tn.edim e := fun e he => by
    unfold edim; rw [graft_edge_left hc ht ha he]
  have hdimR : ∀ e ∈ t.edges.keys, (tn.graft t).edim e = t.edim e := fun e he => by
    unfold edim; rw [graft_edge_right hc ht ha he]
  have hlink : ∀ p ∈ legs.zip t.openE, p.1 ∈ tn.edges.keys ∧ p.2 ∈ t.edges.keys := fun p hp =>
    ⟨hl _ (List.of_mem_zip hp).1, ht.open_exist _ (List.of_mem_zip hp).2⟩
  obtain ⟨tn', ρ, a1, a2, a3, a4, a6, ⟨-, a8⟩, a5⟩ := glue_guarded (R := R) hG (legs := legs) (Cs := G.comps (legs.zip t.openE))
    hgc (Sized.graft hc ht ha hz hz') (hG.nodup _)
    (fun C hC => by
      obtain ⟨p, hp, h⟩ := hG.meets hC
      exact ⟨p.1, h, (List.of_mem_zip hp).1⟩)
    (hG.disjoint _)
    (fun C hC e he => by
      rw [graft_edges hc ht ha, List.mem_append]
      obtain ⟨p, hp, rfl | rfl⟩ := hG.ends _ C hC e he
      · exact Or.inl (hlink p hp).1
      · exact Or.inr (hlink p hp).2)
    ((hG.const_iff _).2 fun p hp => by
      rw [hdimL _ (hlink p hp).1, hdimR _ (hlink p hp).2]
      exact (map_eq_iff_zip hlen _ _).1 hd.symm p hp)
  refine ⟨tn', ρ, ?_, a2, a3, a4, (hG.const_iff ρ).1 a6, fun e he hc' => ?_, fun val idx => ?_⟩
  · unfold insertNet
    rw [if_neg (by omega)]
    exact a1
  · obtain ⟨i, hi, hie⟩ := List.getElem_of_mem he
    have hi' : i < legs.length := hlen ▸ hi
    have hz2 : (legs[i], t.openE[i]) ∈ legs.zip t.openE := List.mem_iff_getElem.2 ⟨i, by simp [hi, hi'], by simp⟩
    obtain ⟨C, hC, -, h2⟩ := hG.cover _ _ hz2
    have := a8 C hC _ h2
    simp only [hie] at this
    rw [a4.self e hc'] at this
    exact ha.edges e (ht.open_exist e he) (hl e this)
  · rw [a5]
    unfold guarded
    rw [graft_edges hc ht ha, sumOver_append]
    have hopen : (tn.graft t).openE = tn.openE := by rw [graft_eq hc ht ha]
    have hfac : (tn.graft t).factors val = tn.factors val ++ t.factors val := by
      rw [graft_eq hc ht ha]; exact List.map_append
    have hdl : ∀ e ∈ tn.edges.keys, (tn.graft t).dom e = tn.dom e := fun e he => by
      unfold TN.dom; rw [graft_edge_left hc ht ha he]
    have hdr : ∀ e ∈ t.edges.keys, (tn.graft t).dom e = t.dom e := fun e he => by
      unfold TN.dom; rw [graft_edge_right hc ht ha he]
    rw [sumOver_dom_congr hdl]
    refine sumOver_congr fun b => ?_
    have h1 : sumOver (tn.graft t).dom t.edges.keys (fun a =>
        if ∀ C ∈ G.comps (legs.zip t.openE), ∀ x ∈ C, ∀ y ∈ C, a x = a y then
          if (tn.graft t).openE.map a = idx then prodAt ((tn.graft t).factors val) a else 0 else 0) b =
        sumOver (tn.graft t).dom t.edges.keys (fun a => (if tn.openE.map b = idx then prodAt (tn.factors val) b else 0) *
          if t.openE.map a = legs.map b then prodAt (t.factors val) a else 0) b := by
      refine sumOver_congr_reach fun c hcr => ?_
      have hcb : ∀ e ∈ tn.edges.keys, c e = b e := fun e he => hcr.1 e fun h => ha.edges e h he
      have e1 : tn.openE.map c = tn.openE.map b := List.map_congr_left fun e he => hcb e (hc.open_exist e he)
      have e2 : legs.map b = legs.map c := List.map_congr_left fun e he => (hcb e (hl e he)).symm
      have e3 : prodAt (tn.factors val) c = prodAt (tn.factors val) b := factors_dependsOn hc val c b hcb
      rw [hopen, hfac, prodAt_append, e1, e3, e2]
      have hg : (∀ C ∈ G.comps (legs.zip t.openE), ∀ x ∈ C, ∀ y ∈ C, c x = c y) ↔ t.openE.map c = legs.map c :=
        (hG.const_iff c).trans (map_eq_iff_zip hlen c c).symm
      rw [if_congr hg rfl rfl]
      by_cases h2 : t.openE.map c = legs.map c
      · simp only [if_pos h2]
        by_cases h3 : tn.openE.map b = idx
        · simp only [if_pos h3]
        · simp only [if_neg h3, zero_mul]
      · simp only [if_neg h2, mul_zero]
    refine h1.trans ?_
    rw [sumOver_const_mul, sumOver_dom_congr hdr]
    have h2 : sumOver t.dom t.edges.keys (fun a => if t.openE.map a = legs.map b then prodAt (t.factors val) a else 0) b =
        t.total val (legs.map b) := by
      unfold total
      refine sumOver_base_dep (l' := t.edges.keys) (fun x y hxy => ?_) fun e he hne => absurd he hne
      have e1 : t.openE.map x = t.openE.map y := List.map_congr_left fun e he => hxy e (ht.open_exist e he)
      show (if _ then _ else _) = if _ then _ else _
      rw [e1, factors_dependsOn ht val x y hxy]
    rw [h2]
    split <;> simp

end TN

end Verif
