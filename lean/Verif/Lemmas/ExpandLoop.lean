import Verif.Lemmas.Expand
/-!
# `expand`: renaming, and the loop over the nodes
-/

set_option linter.unusedSectionVars false

namespace Verif

theorem Nm.tup_ofList (l : List Nm) : (Nm.ofList l).tup = l := by
  induction l with
  | nil => rfl
  | cons a l ih => simp [Nm.ofList, Nm.tup, ih]

theorem Nm.tup_comb (a n : Nm) : (a.comb n).tup = a.tup ++ n.tup := Nm.tup_ofList _

theorem Nm.comb_inj {a n n' : Nm} (h : a.comb n = a.comb n') : n.tup = n'.tup := by
  have := congrArg Nm.tup h
  rw [Nm.tup_comb, Nm.tup_comb] at this
  exact List.append_cancel_left this

/-- Two names that a common name is under are under each other, or are the same tuple. -/
theorem Nm.Under.compare {a b x : Nm} (ha : a.Under x) (hb : b.Under x) : a.tup = b.tup ∨ a.Under b ∨ b.Under a := by
  obtain ⟨y, _, hy⟩ := ha
  obtain ⟨z, _, hz⟩ := hb
  rw [hy] at hz
  rcases List.append_eq_append_iff.1 hz with ⟨w, h1, _⟩ | ⟨w, h1, _⟩
  · by_cases hw : w = []
    · left; rw [h1, hw, List.append_nil]
    · exact Or.inr (Or.inl ⟨w, hw, h1⟩)
  · by_cases hw : w = []
    · left; rw [h1, hw, List.append_nil]
    · exact Or.inr (Or.inr ⟨w, hw, h1⟩)

namespace TN

variable {τ : Type} {R : Type} [CommSemiring R]

/-- The network with all names changed. -/
def renamed (f : Nm → Nm) (tn : TN τ) : TN τ where
  nodes := tn.nodes.map fun p => (f p.1, { legs := p.2.legs.map f, ten := p.2.ten, frozen := false })
  edges := tn.edges.map fun p => (f p.1, p.2)
  adj := tn.adj.map fun p => (f p.1, f p.2)
  openE := tn.openE.map f
  idCount := tn.idCount

theorem keys_map_fst {V W : Type} (d : Dict Nm V) (f : Nm → Nm) (g : V → W) :
    Dict.keys (d.map fun p => (f p.1, g p.2)) = d.keys.map f := by
  simp [Dict.keys]

theorem get?_map_fst {V W : Type} (d : Dict Nm V) (f : Nm → Nm) (g : V → W) (hf : ∀ a ∈ d.keys, ∀ b ∈ d.keys, f a = f b → a = b)
    {k : Nm} (hk : k ∈ d.keys) : Dict.get? (d.map fun p => (f p.1, g p.2)) (f k) = (d.get? k).map g := by
  induction d with
  | nil => rfl
  | cons p d ih =>
    obtain ⟨k', v⟩ := p
    rw [List.map_cons, Dict.get?_cons, Dict.get?_cons]
    by_cases h : k' = k
    · rw [if_pos h, if_pos (h ▸ rfl)]; rfl
    · have hk' : k ∈ Dict.keys d := by
        rcases List.mem_cons.1 (show k ∈ k' :: Dict.keys d from hk) with h' | h'
        · exact absurd h'.symm h
        · exact h'
      rw [if_neg h, if_neg fun hc => h (hf k' (by simp [Dict.keys]) k hk hc)]
      exact ih (fun a ha b hb => hf a (List.mem_cons_of_mem _ ha) b (List.mem_cons_of_mem _ hb)) hk'

/-- `f` does not identify names of the network. -/
structure InjNames (f : Nm → Nm) (tn : TN τ) : Prop where
  nodes : ∀ a ∈ tn.nodes.keys, ∀ b ∈ tn.nodes.keys, f a = f b → a = b
  edges : ∀ a ∈ tn.edges.keys, ∀ b ∈ tn.edges.keys, f a = f b → a = b

theorem renamed_node {f : Nm → Nm} {tn : TN τ} (hf : InjNames f tn) {x : Nm} {r : NodeRec τ} :
    (renamed f tn).nodes.get? x = some r ↔
      ∃ n r0, tn.nodes.get? n = some r0 ∧ x = f n ∧ r = ⟨r0.legs.map f, r0.ten, false⟩ := by
  have key : ∀ n ∈ tn.nodes.keys, (renamed f tn).nodes.get? (f n) =
      (tn.nodes.get? n).map fun r0 => (⟨r0.legs.map f, r0.ten, false⟩ : NodeRec τ) := fun n hn =>
    get?_map_fst tn.nodes f (fun r0 => (⟨r0.legs.map f, r0.ten, false⟩ : NodeRec τ)) hf.nodes hn
  constructor
  · intro h
    have hx : x ∈ (renamed f tn).nodes.keys := Dict.mem_keys_of_get? h
    rw [show (renamed f tn).nodes.keys = tn.nodes.keys.map f from
      keys_map_fst tn.nodes f (fun r0 => (⟨r0.legs.map f, r0.ten, false⟩ : NodeRec τ))] at hx
    obtain ⟨n, hn, rfl⟩ := List.mem_map.1 hx
    obtain ⟨r0, hr0⟩ := Dict.exists_get? hn
    rw [key n hn, hr0] at h
    exact ⟨n, r0, hr0, rfl, (Option.some.inj h).symm⟩
  · rintro ⟨n, r0, h, rfl, rfl⟩
    rw [key n (Dict.mem_keys_of_get? h), h]; rfl

theorem renamed_edge {f : Nm → Nm} {tn : TN τ} (hf : InjNames f tn) {e : Nm} (he : e ∈ tn.edges.keys) :
    (renamed f tn).edges.get? (f e) = tn.edges.get? e := by
  have := get?_map_fst tn.edges f id hf.edges he
  rw [Option.map_id] at this
  exact this

theorem renamed_edges (f : Nm → Nm) (tn : TN τ) : (renamed f tn).edges.keys = tn.edges.keys.map f := keys_map_fst tn.edges f id

theorem renamed_nodes (f : Nm → Nm) (tn : TN τ) : (renamed f tn).nodes.keys = tn.nodes.keys.map f :=
  keys_map_fst tn.nodes f (fun r0 => (⟨r0.legs.map f, r0.ten, false⟩ : NodeRec τ))

theorem nodup_map_of_inj {A B : Type} {f : A → B} {l : List A} (h : ∀ a ∈ l, ∀ b ∈ l, f a = f b → a = b) (hn : l.Nodup) :
    (l.map f).Nodup := List.Nodup.map_on (fun a ha b hb hab => h a ha b hb hab) hn

theorem Consistent.renamed {f : Nm → Nm} {tn : TN τ} (hf : InjNames f tn) (hc : tn.Consistent) :
    (TN.renamed f tn).Consistent where
  nodes_nodup := by rw [renamed_nodes]; exact nodup_map_of_inj hf.nodes hc.nodes_nodup
  edges_nodup := by rw [renamed_edges]; exact nodup_map_of_inj hf.edges hc.edges_nodup
  legs_exist := fun x r hr e he => by
    obtain ⟨n, r0, h1, rfl, rfl⟩ := (renamed_node hf).1 hr
    obtain ⟨e0, he0, rfl⟩ := List.mem_map.1 he
    rw [renamed_edges]
    exact List.mem_map.2 ⟨e0, hc.legs_exist n r0 h1 e0 he0, rfl⟩
  open_exist := fun e he => by
    obtain ⟨e0, he0, rfl⟩ := List.mem_map.1 he
    rw [renamed_edges]
    exact List.mem_map.2 ⟨e0, hc.open_exist e0 he0, rfl⟩
  adj_iff := fun x y => by
    constructor
    · intro h
      obtain ⟨⟨n, e⟩, hp, heq⟩ := List.mem_map.1 h
      cases heq
      obtain ⟨r0, hr0, he⟩ := (hc.adj_iff n e).1 hp
      exact ⟨_, (renamed_node hf).2 ⟨n, r0, hr0, rfl, rfl⟩, List.mem_map.2 ⟨e, he, rfl⟩⟩
    · rintro ⟨r, hr, he⟩
      obtain ⟨n, r0, h1, rfl, rfl⟩ := (renamed_node hf).1 hr
      obtain ⟨e0, he0, rfl⟩ := List.mem_map.1 he
      exact List.mem_map.2 ⟨(n, e0), (hc.adj_iff n e0).2 ⟨r0, h1, he0⟩, rfl⟩
  adj_nodup := by
    refine nodup_map_of_inj ?_ hc.adj_nodup
    rintro ⟨n, e⟩ h ⟨n', e'⟩ h' heq
    simp only [Prod.mk.injEq] at heq
    obtain ⟨r, hr, he⟩ := (hc.adj_iff n e).1 h
    obtain ⟨r', hr', he'⟩ := (hc.adj_iff n' e').1 h'
    rw [hf.nodes n (Dict.mem_keys_of_get? hr) n' (Dict.mem_keys_of_get? hr') heq.1,
      hf.edges e (hc.legs_exist n r hr e he) e' (hc.legs_exist n' r' hr' e' he') heq.2]

theorem Sized.renamed {f : Nm → Nm} {tn : TN τ} (hf : InjNames f tn) (hz : tn.Sized) : (TN.renamed f tn).Sized := by
  intro x r hr
  have hx := Dict.mem_keys_of_get? hr
  rw [renamed_edges] at hx
  obtain ⟨e, he, rfl⟩ := List.mem_map.1 hx
  rw [renamed_edge hf he] at hr
  exact hz e r hr

theorem renamed_edim {f : Nm → Nm} {tn : TN τ} (hf : InjNames f tn) {e : Nm} (he : e ∈ tn.edges.keys) :
    (renamed f tn).edim (f e) = tn.edim e := by
  unfold edim; rw [renamed_edge hf he]

theorem renamed_total {f : Nm → Nm} {tn : TN τ} (hf : InjNames f tn) (hc : tn.Consistent) (val : τ → List Nat → R)
    (idx : List Nat) : (renamed f tn).total val idx = tn.total val idx := by
  unfold total
  have h1 : tn.edges.keys = (tn.edges.keys.map fun e => (e, f e)).map Prod.fst := by
    rw [List.map_map]; exact (List.map_id _).symm
  have h2 : (renamed f tn).edges.keys = (tn.edges.keys.map fun e => (e, f e)).map Prod.snd := by
    rw [renamed_edges, List.map_map]; rfl
  have h3 : ((tn.edges.keys.map fun e => (e, f e)).map Prod.fst).Nodup := h1 ▸ hc.edges_nodup
  have h4 : ((tn.edges.keys.map fun e => (e, f e)).map Prod.snd).Nodup := h2 ▸ (hc.renamed hf).edges_nodup
  rw [h2]
  refine Eq.trans ?_ (congrArg (fun l => sumOver tn.dom l _ _) h1.symm)
  symm
  refine sumOver_transfer _ h3 h4 (fun p hp => ?_) fun b c _ _ hbc => ?_
  · obtain ⟨e, he, rfl⟩ := List.mem_map.1 hp
    show tn.dom e = (renamed f tn).dom (f e)
    unfold TN.dom
    rw [renamed_edge hf he]
  · have hbc : ∀ e ∈ tn.edges.keys, b e = c (f e) := fun e he => hbc (e, f e) (List.mem_map.2 ⟨e, he, rfl⟩)
    have e1 : (renamed f tn).openE.map c = tn.openE.map b := by
      show (tn.openE.map f).map c = _
      rw [List.map_map]
      exact List.map_congr_left fun e he => (hbc e (hc.open_exist e he)).symm
    have e2 : prodAt ((renamed f tn).factors val) c = prodAt (tn.factors val) b := by
      unfold prodAt TN.factors renamed
      simp only [List.map_map]
      congr 1
      refine List.map_congr_left fun p hp => ?_
      simp only [Function.comp, Factor.at, NodeRec.factor, List.map_map]
      refine congrArg _ ?_
      exact List.map_congr_left fun e he =>
        (hbc e (hc.legs_exist p.1 p.2 (Dict.get?_of_mem hc.nodes_nodup hp) e he)).symm
    rw [e1, e2]

/-- `add_attribute_to_names` renames if the new names are distinct. -/
theorem addAttr_eq {tn : TN τ} {att : Nm} (hf : InjNames att.comb tn) (hc : tn.Consistent) :
    tn.addAttr att = renamed att.comb tn := by
  have h0 : (({} : TN τ)).Consistent := by
    constructor <;> simp [Dict.keys]
  have h1 := hc.renamed hf
  have h2 := graft_eq (tn := ({} : TN τ)) (t := renamed att.comb tn) h0 h1 ⟨by simp [Dict.keys], by simp [Dict.keys]⟩
  have h3 : tn.addAttr att = { graft {} (renamed att.comb tn) with
      openE := tn.openE.map att.comb, idCount := tn.idCount } := rfl
  rw [h3, h2]; rfl

end TN

theorem mapM_option {A B : Type} {f : A → Option B} {g : A → B} {l : List A} {l' : List B} (h : l.mapM f = some l')
    (hg : ∀ a b, f a = some b → g a = b) : l.map g = l' := by
  induction l generalizing l' with
  | nil =>
    have : some [] = some l' := h
    exact Option.some.inj this
  | cons a l ih =>
    rw [List.mapM_cons] at h
    cases ha : f a with
    | none => rw [ha] at h; cases h
    | some b =>
      rw [ha] at h
      cases hl : l.mapM f with
      | none => rw [hl] at h; cases h
      | some l1 =>
        rw [hl] at h
        have : some (b :: l1) = some l' := h
        cases this
        rw [List.map_cons, ih hl, hg a b ha]

theorem TN.shape?_dims {τ : Type} {tn : TN τ} {l : List (Option Nat)} (h : tn.shape? = some l) :
    tn.openE.map tn.edim = l := by
  refine mapM_option h fun e d he => ?_
  unfold TN.edim
  cases hr : tn.edges.get? e with
  | none => rw [hr] at he; cases he
  | some r => rw [hr] at he; exact Option.some.inj he

theorem TN.shape?_eq {τ : Type} {tn : TN τ} (h : ∀ e ∈ tn.openE, e ∈ tn.edges.keys) :
    tn.shape? = some (tn.openE.map tn.edim) := by
  unfold TN.shape? TN.edim
  generalize tn.openE = l at h
  induction l with
  | nil => rfl
  | cons e l ih =>
    obtain ⟨r, hr⟩ := Dict.exists_get? (h e List.mem_cons_self)
    rw [List.mapM_cons, ih fun e' he' => h e' (List.mem_cons_of_mem _ he')]
    simp [hr]

namespace TVal

variable {R : Type}

theorem Expandable.idCount {k : Nat} {tn : TN (TVal R)} (h : Expandable k tn) (c : Nat) :
    Expandable k { tn with idCount := c } := by
  cases k with
  | zero => exact h
  | succ k =>
    obtain ⟨h1, h2, h3, h4⟩ := h
    exact ⟨⟨h1.1, h1.2, h1.3, h1.4, h1.5, h1.6⟩, h2, ⟨h3.1, h3.2, h3.3, h3.4, h3.5, h3.6⟩, h4⟩

variable [CommSemiring R] [Star R]

/-- The node of `tn` named `n` holds a network. -/
def NetAt (tn : TN (TVal R)) (n : Nm) : Prop := ∃ r t, tn.nodes.get? n = some r ∧ r.ten = some t ∧ t.IsNet

/-- A property of tensors that passes to the tensors at the nodes of a network. -/
structure Hereditary (P : TVal R → Prop) : Prop where
  node : ∀ tn : TN (TVal R), P (ofTN tn) → ∀ n r t, tn.nodes.get? n = some r → r.ten = some t → P t
  count : ∀ (tn : TN (TVal R)) c, P (ofTN tn) → P (ofTN { tn with idCount := c })

/-- The state in the loop over the nodes: the nodes in `todo` are still as at the start, all others are no networks. -/
structure Run (tn0 : TN (TVal R)) (todo : List Nm) (tn : TN (TVal R)) : Prop where
  cons : tn.Consistent
  sized : tn.Sized
  tot : ∀ idx, tn.total tot idx = tn0.total tot idx
  shape : tn.openE.map tn.edim = tn0.openE.map tn0.edim
  todo_nodes : ∀ n ∈ todo, ∃ r r0, tn.nodes.get? n = some r ∧ tn0.nodes.get? n = some r0 ∧ r.ten = r0.ten ∧
    r.legs.map tn.edim = r0.legs.map tn0.edim
  done : ∀ n r, tn.nodes.get? n = some r → n ∉ todo → ∃ t, r.ten = some t ∧ ¬ t.IsNet ∧ ∀ u, t ≠ .view u
  node_names : ∀ n ∈ tn.nodes.keys, n ∈ tn0.nodes.keys ∨ ∃ n0, NetAt tn0 n0 ∧ n0 ∉ todo ∧ n0.Under n
  edge_names : ∀ e ∈ tn.edges.keys, e ∈ tn0.edges.keys ∨ ∃ n0, NetAt tn0 n0 ∧ n0 ∉ todo ∧ n0.Under e
  nodes_inj : ∀ n ∈ tn.nodes.keys, ∀ n' ∈ tn.nodes.keys, n.tup = n'.tup → n = n'
  edges_inj : ∀ e ∈ tn.edges.keys, ∀ e' ∈ tn.edges.keys, e.tup = e'.tup → e = e'
  nodes_ne : ∀ n ∈ tn.nodes.keys, n.tup ≠ []
  edges_ne : ∀ e ∈ tn.edges.keys, e.tup ≠ []
  leaf : ∀ P : TVal R → Prop, Hereditary P → P (ofTN tn0) → ∀ n r t, tn.nodes.get? n = some r → r.ten = some t → P t
  wired : Tight (ofTN tn0) → ∀ b, Edgy b tn0 → Edgy b tn
  fits : Fit (ofTN tn0) → ∀ n r, tn.nodes.get? n = some r → ∃ t, r.ten = some t ∧ t.shape = some (r.legs.map tn.edim)
  short : Firm (ofTN tn0) → tn.FixShort
  firm : Firm (ofTN tn0) → ∀ b, Moored b tn0 → Moored b tn
  opens : ∀ e ∈ tn0.openE, e ∈ tn.edges.keys → e ∈ tn.openE
  edge_deep : ∀ e ∈ tn.edges.keys, e ∈ tn0.edges.keys ∨ ∃ n0 r s, tn0.nodes.get? n0 = some r ∧ r.ten = some (ofTN s) ∧
    ∃ y, y ≠ [] ∧ e.tup = n0.tup ++ y ∧ (y.length = 1 → ∃ x ∈ s.edges.keys, x ∉ s.openE ∧ x.tup = y)

theorem tight_hereditary : Hereditary (Tight (R := R)) where
  node := fun tn h n r t hr ht => (((tight_ofTN tn).1 h).2.2 (n, r) (Dict.mem_of_get? hr) t ht).1
  count := fun tn c h => by
    obtain ⟨h1, h2, h3⟩ := (tight_ofTN tn).1 h
    exact (tight_ofTN _).2 ⟨⟨h1.1, h1.2, h1.3, h1.4, h1.5, h1.6⟩, h2, h3⟩

theorem Nm.Under.of_tup {n x y : Nm} (h : n.Under x) (hxy : x.tup = y.tup) : n.Under y := by
  obtain ⟨z, h1, h2⟩ := h
  exact ⟨z, h1, hxy ▸ h2⟩

/-- A name under the node at hand is no name of the network so far. -/
theorem Run.fresh {tn0 : TN (TVal R)} (hN : Named tn0) {n : Nm} {todo : List Nm} (hn : NetAt tn0 n) (hnt : n ∈ todo) {x : Nm}
    (hx : n.Under x) :
    ¬ ∃ n0, NetAt tn0 n0 ∧ n0 ∉ todo ∧ n0.Under x := by
  rintro ⟨n0, h1, h2, h3⟩
  obtain ⟨r, t, a1, a2, a3⟩ := hn
  obtain ⟨r', t', b1, b2, b3⟩ := h1
  rcases hx.compare h3 with h | h | h
  · have := hN.nodes_inj n (Dict.mem_keys_of_get? a1) n0 (Dict.mem_keys_of_get? b1) h
    exact h2 (this ▸ hnt)
  · exact hN.nodes_under n r t a1 a2 a3 n0 (Dict.mem_keys_of_get? b1) h
  · exact hN.nodes_under n0 r' t' b1 b2 b3 n (Dict.mem_keys_of_get? a1) h

theorem factors_pop {τ : Type} {tn : TN τ} (hc : tn.Consistent) (val : τ → List Nat → R) {n : Nm} {r : NodeRec τ}
    (hr : tn.nodes.get? n = some r) :
    (tn.factors val).Perm (r.factor val :: ({ tn with nodes := tn.nodes.del n, adj := tn.adj.filter (·.1 ≠ n) } : TN τ).factors val) := by
  have h1 : tn.nodes.Perm ((n, r) :: tn.nodes.del n) := by
    have hnd : ∀ d : Dict Nm (NodeRec τ), d.keys.Nodup → d.Nodup := fun d hd => List.Nodup.of_map Prod.fst hd
    refine (List.perm_ext_iff_of_nodup (hnd _ hc.nodes_nodup) (List.nodup_cons.2 ⟨fun h => ?_, hnd _ (Dict.nodup_keys_del hc.nodes_nodup n)⟩)).2 ?_
    · have := (Dict.mem_keys_del (d := tn.nodes)).1 (List.mem_map.2 ⟨_, h, rfl⟩)
      exact this.2 rfl
    · rintro ⟨k, v⟩
      rw [List.mem_cons, Dict.mem_iff_get? hc.nodes_nodup, Dict.mem_iff_get? (Dict.nodup_keys_del hc.nodes_nodup n),
        Dict.get?_del]
      by_cases hk : k = n
      · subst hk
        rw [hr]
        simp [eq_comm]
      · simp [hk]
  exact h1.map _

/-- The loop body. -/
theorem expandNode_run {G : TN.Glue} (hG : G.Sound) {k : Nat}
    (ih : ∀ s : TN (TVal R), Expandable k s → ∃ s', expand G k s = (s', .ok ()) ∧ Run s [] s')
    {tn0 : TN (TVal R)} (h0 : Expandable (k + 1) tn0) {n : Nm} {todo : List Nm} (hnt : n ∉ todo) {tn : TN (TVal R)}
    (h : Run tn0 (n :: todo) tn) : ∃ tn', expandNode G (expand G k) tn n = (tn', .ok ()) ∧ Run tn0 todo tn' := by
  obtain ⟨hc0, hz0, hN, hT⟩ := h0
  obtain ⟨r, r0, hr, hr0, hten, hlegs⟩ := h.todo_nodes n List.mem_cons_self
  obtain ⟨t, ht, hview, hnet⟩ := hT n r0 hr0
  have hrt : r.ten = some t := hten.trans ht
  have keep : ¬ t.IsNet → Run tn0 todo tn := fun hi => by
    refine ⟨h.cons, h.sized, h.tot, h.shape, fun n' hn' => h.todo_nodes n' (List.mem_cons_of_mem _ hn'), fun n' r' hr' hn' => ?_,
      fun x hx => ?_, fun x hx => ?_, h.nodes_inj, h.edges_inj, h.nodes_ne, h.edges_ne, h.leaf, h.wired, h.fits,
      h.short, h.firm, h.opens, h.edge_deep⟩
    · by_cases hnn : n' = n
      · subst hnn
        rw [hr] at hr'; cases hr'
        exact ⟨t, hrt, hi, hview⟩
      · exact h.done n' r' hr' fun hm => (List.mem_cons.1 hm).elim hnn hn'
    · rcases h.node_names x hx with h1 | ⟨n0, a, b, c⟩
      · exact Or.inl h1
      · exact Or.inr ⟨n0, a, fun hm => b (List.mem_cons_of_mem _ hm), c⟩
    · rcases h.edge_names x hx with h1 | ⟨n0, a, b, c⟩
      · exact Or.inl h1
      · exact Or.inr ⟨n0, a, fun hm => b (List.mem_cons_of_mem _ hm), c⟩
  cases t with
  | view u => exact absurd rfl (hview u)
  | ten d =>
    refine ⟨tn, ?_, keep ?_⟩
    · unfold expandNode; simp only [hr, hrt]
    · rintro ⟨s, hs⟩; cases hs
  | sum ts =>
    refine ⟨tn, ?_, keep ?_⟩
    · unfold expandNode; simp only [hr, hrt]
    · rintro ⟨s, hs⟩; cases hs
  | net ns es adj op c =>
    obtain ⟨hs, hshape⟩ := hnet ⟨ns, es, adj, op, c⟩ rfl
    have hNet : NetAt tn0 n := ⟨r0, _, hr0, ht, ⟨⟨ns, es, adj, op, c⟩, rfl⟩⟩
    obtain ⟨s, hs1, hs2⟩ := ih _ (hs.idCount 0)
    -- popping the node
    set tn1 : TN (TVal R) := { tn with nodes := tn.nodes.del n, adj := tn.adj.filter (·.1 ≠ n) } with htn1
    have hpop : tn.popNode n = (tn1, .ok r) := by unfold TN.popNode; rw [hr]
    have hc1 : tn1.Consistent := by
      have := h.cons.popNode n
      rw [hpop] at this; exact this
    have hz1 : tn1.Sized := h.sized
    have hget1 : ∀ x, tn1.nodes.get? x = if x = n then none else tn.nodes.get? x := fun x => Dict.get?_del _ _ _
    have hkey1 : ∀ x ∈ tn1.nodes.keys, x ∈ tn.nodes.keys := fun x hx => (Dict.mem_keys_del.1 hx).1
    -- the renamed inner network
    have hinj : TN.InjNames n.comb s := ⟨fun a ha b hb hab => hs2.nodes_inj a ha b hb (Nm.comb_inj hab),
      fun a ha b hb hab => hs2.edges_inj a ha b hb (Nm.comb_inj hab)⟩
    have hcr := hs2.cons.renamed hinj
    have hzr := TN.Sized.renamed hinj hs2.sized
    have hunderN : ∀ x ∈ (TN.renamed n.comb s).nodes.keys, n.Under x := by
      intro x hx
      rw [TN.renamed_nodes] at hx
      obtain ⟨y, hy, rfl⟩ := List.mem_map.1 hx
      exact ⟨y.tup, hs2.nodes_ne y hy, Nm.tup_comb n y⟩
    have hunderE : ∀ x ∈ (TN.renamed n.comb s).edges.keys, n.Under x := by
      intro x hx
      rw [TN.renamed_edges] at hx
      obtain ⟨y, hy, rfl⟩ := List.mem_map.1 hx
      exact ⟨y.tup, hs2.edges_ne y hy, Nm.tup_comb n y⟩
    obtain ⟨rn, tN, hn1, hn2, hn3⟩ := hNet
    have hNet : NetAt tn0 n := ⟨rn, tN, hn1, hn2, hn3⟩
    -- no name under `n` is in use so far, not even as the same tuple
    have hfreshN : ∀ x, n.Under x → ∀ y ∈ tn.nodes.keys, y.tup ≠ x.tup := by
      intro x hx y hy hyx
      have hxy := Nm.Under.of_tup hx hyx.symm
      rcases h.node_names y hy with h1 | h1
      · exact hN.nodes_under n rn tN hn1 hn2 hn3 y h1 hxy
      · exact Run.fresh hN hNet List.mem_cons_self hxy h1
    have hfreshE : ∀ x, n.Under x → ∀ y ∈ tn.edges.keys, y.tup ≠ x.tup := by
      intro x hx y hy hyx
      have hxy := Nm.Under.of_tup hx hyx.symm
      rcases h.edge_names y hy with h1 | h1
      · exact hN.edges_under n rn tN hn1 hn2 hn3 y h1 hxy
      · exact Run.fresh hN hNet List.mem_cons_self hxy h1
    have hap : TN.Apart tn1 (TN.renamed n.comb s) :=
      ⟨fun x hx hx' => hfreshN x (hunderN x hx) x (hkey1 x hx') rfl, fun x hx hx' => hfreshE x (hunderE x hx) x hx' rfl⟩
    have hl1 : ∀ e ∈ r.legs, e ∈ tn1.edges.keys := fun e he => h.cons.legs_exist n r hr e he
    have hdim : r.legs.map tn1.edim = (TN.renamed n.comb s).openE.map (TN.renamed n.comb s).edim := by
      have e1 : (TN.renamed n.comb s).openE.map (TN.renamed n.comb s).edim = s.openE.map s.edim := by
        show (s.openE.map n.comb).map _ = _
        rw [List.map_map]
        exact List.map_congr_left fun e he => TN.renamed_edim hinj (hs2.cons.open_exist e he)
      rw [e1, hs2.shape]
      have e2 := TN.shape?_dims hshape
      exact hlegs.trans e2.symm
    obtain ⟨tn', ρ, a1, a2, a3, a4, a6, a7, a5⟩ := TN.insertNet_total (R := R) hG hc1 hcr hap hz1 hzr hl1 hdim
    have hdimG : ∀ e ∈ tn.edges.keys, (tn1.graft (TN.renamed n.comb s)).edim e = tn.edim e := fun e he => by
      unfold TN.edim; rw [TN.graft_edge_left hc1 hcr hap he]
    have hkeysG : ∀ e ∈ tn.edges.keys, e ∈ (tn1.graft (TN.renamed n.comb s)).edges.keys := fun e he => by
      rw [TN.graft_edges hc1 hcr hap, List.mem_append]; exact Or.inl he
    have hnodeG : ∀ x r', tn'.nodes.get? x = some r' → ∃ r1, (tn1.graft (TN.renamed n.comb s)).nodes.get? x = some r1 ∧
        r'.ten = r1.ten := by
      intro x r' hr'
      have hx := Dict.mem_keys_of_get? hr'
      rw [a4.keys] at hx
      obtain ⟨r1, hr1⟩ := Dict.exists_get? hx
      obtain ⟨r2, b1, b2, _⟩ := a4.node x r1 hr1
      rw [hr'] at b1; cases b1
      exact ⟨r1, hr1, b2⟩
    have hnames : ∀ x ∈ tn'.nodes.keys, x ∈ tn.nodes.keys ∨ x ∈ (TN.renamed n.comb s).nodes.keys := by
      intro x hx
      rw [a4.keys, TN.graft_eq hc1 hcr hap] at hx
      rcases List.mem_append.1 ((Dict.keys_append tn1.nodes (TN.renamed n.comb s).nodes) ▸ hx) with h1 | h1
      · exact Or.inl (hkey1 x h1)
      · exact Or.inr h1
    have hedges : ∀ x ∈ tn'.edges.keys, x ∈ tn.edges.keys ∨ x ∈ (TN.renamed n.comb s).edges.keys := by
      intro x hx
      have := a4.sub x hx
      rw [TN.graft_edges hc1 hcr hap, List.mem_append] at this
      exact this
    have hfs : Firm (ofTN tn0) → s.FixShort ∧ Moored False s := fun hfirm => by
      have h1 := ((firm_ofTN tn0).1 hfirm).2 (n, r0) (Dict.mem_of_get? hr0) _ ht
      have h2 : Firm (ofTN (⟨ns, es, adj, op, 0⟩ : TN (TVal R))) := by
        have := h1.1
        rw [Firm] at this
        unfold ofTN
        rw [Firm]; exact this
      exact ⟨hs2.short h2, hs2.firm h2 False h1.2⟩
    have hfixR : ∀ y, s.IsFixed y → (tn1.graft (TN.renamed n.comb s)).IsFixed (n.comb y) := by
      rintro y ⟨r', l, h1, h2⟩
      have hy := Dict.mem_keys_of_get? h1
      refine ⟨r', l, ?_, h2⟩
      rw [TN.graft_edge_right hc1 hcr hap (by rw [TN.renamed_edges]; exact List.mem_map.2 ⟨y, hy, rfl⟩), TN.renamed_edge hinj hy]
      exact h1
    have hfixL : ∀ y, tn.IsFixed y → (tn1.graft (TN.renamed n.comb s)).IsFixed y := by
      rintro y ⟨r', l, h1, h2⟩
      refine ⟨r', l, ?_, h2⟩
      rw [TN.graft_edge_left hc1 hcr hap (Dict.mem_keys_of_get? h1)]
      exact h1
    have hsG : Firm (ofTN tn0) → (tn1.graft (TN.renamed n.comb s)).FixShort := fun hfirm e r' l hr' hl => by
      have he := Dict.mem_keys_of_get? hr'
      rw [TN.graft_edges hc1 hcr hap, List.mem_append] at he
      rcases he with he | he
      · rw [TN.graft_edge_left hc1 hcr hap he] at hr'
        exact h.short hfirm e r' l hr' hl
      · rw [TN.graft_edge_right hc1 hcr hap he] at hr'
        rw [TN.renamed_edges] at he
        obtain ⟨y, hy, rfl⟩ := List.mem_map.1 he
        rw [TN.renamed_edge hinj hy] at hr'
        exact (hfs hfirm).1 y r' l hr' hl
    refine ⟨tn', ?_, ⟨a2, a3, fun idx => ?_, ?_, fun n' hn' => ?_, fun n' r' hr' hn' => ?_, fun x hx => ?_, fun x hx => ?_,
      fun x hx y hy hxy => ?_, fun x hx y hy hxy => ?_, fun x hx => ?_, fun x hx => ?_,
      fun P hP hP0 x r' t' hr' ht' => ?_, fun htight b hb x hx => ?_, fun hfit x r' hr' => ?_,
      fun hfirm => (a4.short (hsG hfirm)).1, fun hfirm b hb x hx => ?_, fun x hx hx' => ?_, fun x hx => ?_⟩⟩
    · unfold expandNode
      simp only [hr, hrt, hpop]
      have : expand G k ⟨ns, es, adj, op, 0⟩ = (s, .ok ()) := hs1
      rw [this]
      show tn1.insertNet G (s.addAttr n) r.legs = _
      rw [TN.addAttr_eq hinj hs2.cons]
      exact a1
    · rw [a5, ← h.tot]
      unfold TN.total
      refine sumOver_congr fun b => ?_
      refine if_congr Iff.rfl ?_ rfl
      rw [prodAt_perm (factors_pop h.cons TVal.tot hr), prodAt_cons, mul_comm]
      refine congrArg (· * _) ?_
      show (TN.renamed n.comb s).total TVal.tot (r.legs.map b) = _
      rw [TN.renamed_total hinj hs2.cons, hs2.tot]
      unfold Factor.at NodeRec.factor
      simp only [hrt]
      rw [TVal.tot, totFactors_eq]
      rfl
    · rw [a4.opn, List.map_map]
      have : (tn1.graft (TN.renamed n.comb s)).openE = tn.openE := by rw [TN.graft_eq hc1 hcr hap]
      rw [this, ← h.shape]
      refine List.map_congr_left fun e he => ?_
      have he := h.cons.open_exist e he
      exact ((a4.edge e (hkeysG e he)).2).trans (hdimG e he)
    · obtain ⟨q, q0, b1, b2, b3, b4⟩ := h.todo_nodes n' (List.mem_cons_of_mem _ hn')
      have hne : n' ≠ n := fun hc => hnt (hc ▸ hn')
      have b1' : tn1.nodes.get? n' = some q := by rw [hget1, if_neg hne, b1]
      obtain ⟨q', c1, c2, c3⟩ := a4.node n' q ((TN.graft_node hc1 hcr hap).2 (Or.inl b1'))
      refine ⟨q', q0, c1, b2, c2.trans b3, ?_⟩
      rw [← b4, c3, List.map_map]
      refine List.map_congr_left fun e he => ?_
      have he := h.cons.legs_exist n' q b1 e he
      exact ((a4.edge e (hkeysG e he)).2).trans (hdimG e he)
    · obtain ⟨r1, b1, b2⟩ := hnodeG n' r' hr'
      rw [b2]
      rcases (TN.graft_node hc1 hcr hap).1 b1 with h1 | h1
      · rw [hget1] at h1
        split at h1
        · cases h1
        · rename_i hne
          exact h.done n' r1 h1 fun hm => (List.mem_cons.1 hm).elim hne hn'
      · obtain ⟨y, q, c1, _, c3⟩ := (TN.renamed_node hinj).1 h1
        obtain ⟨u, d1, d2⟩ := hs2.done y q c1 (by simp)
        exact ⟨u, by rw [c3]; exact d1, d2⟩
    · rcases hnames x hx with h1 | h1
      · rcases h.node_names x h1 with h2 | ⟨n0, b1, b2, b3⟩
        · exact Or.inl h2
        · exact Or.inr ⟨n0, b1, fun hm => b2 (List.mem_cons_of_mem _ hm), b3⟩
      · exact Or.inr ⟨n, hNet, hnt, hunderN x h1⟩
    · rcases hedges x hx with h1 | h1
      · rcases h.edge_names x h1 with h2 | ⟨n0, b1, b2, b3⟩
        · exact Or.inl h2
        · exact Or.inr ⟨n0, b1, fun hm => b2 (List.mem_cons_of_mem _ hm), b3⟩
      · exact Or.inr ⟨n, hNet, hnt, hunderE x h1⟩
    · rcases hnames x hx with h1 | h1 <;> rcases hnames y hy with h2 | h2
      · exact h.nodes_inj x h1 y h2 hxy
      · exact absurd hxy (hfreshN y (hunderN y h2) x h1)
      · exact absurd hxy.symm (hfreshN x (hunderN x h1) y h2)
      · rw [TN.renamed_nodes] at h1 h2
        obtain ⟨u, hu, rfl⟩ := List.mem_map.1 h1
        obtain ⟨v, hv, rfl⟩ := List.mem_map.1 h2
        rw [Nm.tup_comb, Nm.tup_comb] at hxy
        rw [hs2.nodes_inj u hu v hv (List.append_cancel_left hxy)]
    · rcases hedges x hx with h1 | h1 <;> rcases hedges y hy with h2 | h2
      · exact h.edges_inj x h1 y h2 hxy
      · exact absurd hxy (hfreshE y (hunderE y h2) x h1)
      · exact absurd hxy.symm (hfreshE x (hunderE x h1) y h2)
      · rw [TN.renamed_edges] at h1 h2
        obtain ⟨u, hu, rfl⟩ := List.mem_map.1 h1
        obtain ⟨v, hv, rfl⟩ := List.mem_map.1 h2
        rw [Nm.tup_comb, Nm.tup_comb] at hxy
        rw [hs2.edges_inj u hu v hv (List.append_cancel_left hxy)]
    · rcases hnames x hx with h1 | h1
      · exact h.nodes_ne x h1
      · obtain ⟨z, hz, hxz⟩ := hunderN x h1
        rw [hxz]; simp [hz]
    · rcases hedges x hx with h1 | h1
      · exact h.edges_ne x h1
      · obtain ⟨z, hz, hxz⟩ := hunderE x h1
        rw [hxz]; simp [hz]
    · obtain ⟨r1, b1, b2⟩ := hnodeG x r' hr'
      rw [b2] at ht'
      rcases (TN.graft_node hc1 hcr hap).1 b1 with h1 | h1
      · rw [hget1] at h1
        split at h1
        · cases h1
        · exact h.leaf P hP hP0 x r1 t' h1 ht'
      · obtain ⟨y, q, c1, _, c3⟩ := (TN.renamed_node hinj).1 h1
        refine hs2.leaf P hP ?_ y q t' c1 (by rw [c3] at ht'; exact ht')
        exact hP.count ⟨ns, es, adj, op, c⟩ 0 (hP.node tn0 hP0 n r0 _ hr0 ht)
    · have hx1 := hedges x hx
      have hin : Edgy False s := by
        have h1 := ((tight_ofTN tn0).1 htight).2.2 (n, r0) (Dict.mem_of_get? hr0) _ ht
        exact hs2.wired (tight_hereditary.count ⟨ns, es, adj, op, c⟩ 0 h1.1) False h1.2
      -- an edge on a leg of the inner network is on a leg of the result, after renaming
      have hinner : ∀ y ∈ s.edges.keys, ∃ p ∈ tn'.nodes, ρ (n.comb y) ∈ p.2.legs := by
        intro y hy
        rcases hin y hy with ⟨p, hp, hyp⟩ | hc'
        · have hq := (TN.renamed_node hinj).2 ⟨p.1, p.2, Dict.get?_of_mem hs2.cons.nodes_nodup hp, rfl, rfl⟩
          obtain ⟨q', d1, _, d3⟩ := a4.node _ _ ((TN.graft_node hc1 hcr hap).2 (Or.inr hq))
          refine ⟨(_, q'), Dict.mem_of_get? d1, ?_⟩
          show _ ∈ q'.legs
          rw [d3]
          exact List.mem_map.2 ⟨_, List.mem_map.2 ⟨y, hyp, rfl⟩, rfl⟩
        · exact hc'.1.elim
      rcases hx1 with h1 | h1
      · rcases h.wired htight b hb x h1 with ⟨p, hp, hxp⟩ | ⟨hb', ho⟩
        · have hpg := Dict.get?_of_mem h.cons.nodes_nodup hp
          by_cases hpn : p.1 = n
          · rw [hpn, hr] at hpg
            have hxr : x ∈ r.legs := by rw [Option.some.inj hpg]; exact hxp
            have hlen : r.legs.length = (TN.renamed n.comb s).openE.length := by simpa using congrArg List.length hdim
            obtain ⟨i, hi, hix⟩ := List.getElem_of_mem hxr
            have hi' : i < (TN.renamed n.comb s).openE.length := hlen ▸ hi
            have hz : (r.legs[i], (TN.renamed n.comb s).openE[i]) ∈ r.legs.zip (TN.renamed n.comb s).openE := by
              refine List.mem_iff_getElem.2 ⟨i, by simp [hi, hi'], by simp⟩
            have hρ := a6 _ hz
            simp only [hix] at hρ
            have hmem := List.getElem_mem hi'
            obtain ⟨y, hy, hyo⟩ := List.mem_map.1 (show _ ∈ s.openE.map n.comb from hmem)
            obtain ⟨p', hp', hl'⟩ := hinner y (hs2.cons.open_exist y hy)
            refine Or.inl ⟨p', hp', ?_⟩
            rw [hyo] at hl'
            rw [← a4.self x hx, hρ]
            exact hl'
          · have h1' : tn1.nodes.get? p.1 = some p.2 := by rw [hget1, if_neg hpn, hpg]
            obtain ⟨q', d1, _, d3⟩ := a4.node _ _ ((TN.graft_node hc1 hcr hap).2 (Or.inl h1'))
            refine Or.inl ⟨(_, q'), Dict.mem_of_get? d1, ?_⟩
            show _ ∈ q'.legs
            rw [d3, ← a4.self x hx]
            exact List.mem_map.2 ⟨x, hxp, rfl⟩
        · refine Or.inr ⟨hb', ?_⟩
          rw [a4.opn, ← a4.self x hx]
          refine List.mem_map.2 ⟨x, ?_, rfl⟩
          rw [TN.graft_eq hc1 hcr hap]; exact ho
      · rw [TN.renamed_edges] at h1
        obtain ⟨y, hy, rfl⟩ := List.mem_map.1 h1
        obtain ⟨p', hp', hl'⟩ := hinner y hy
        rw [a4.self _ hx] at hl'
        exact Or.inl ⟨p', hp', hl'⟩
    · have hx := Dict.mem_keys_of_get? hr'
      rw [a4.keys] at hx
      obtain ⟨r1, hr1⟩ := Dict.exists_get? hx
      obtain ⟨r2, b1, b2, b3⟩ := a4.node x r1 hr1
      rw [hr'] at b1; cases b1
      rcases (TN.graft_node hc1 hcr hap).1 hr1 with h1 | h1
      · rw [hget1] at h1
        split at h1
        · cases h1
        · obtain ⟨u, d1, d2⟩ := h.fits hfit x r1 h1
          refine ⟨u, b2.trans d1, ?_⟩
          rw [d2, b3, List.map_map]
          refine congrArg some (List.map_congr_left fun e he => ?_)
          have he := h.cons.legs_exist x r1 h1 e he
          exact (((a4.edge e (hkeysG e he)).2).trans (hdimG e he)).symm
      · obtain ⟨y, q, c1, _, c3⟩ := (TN.renamed_node hinj).1 h1
        have hfs : Fit (ofTN (⟨ns, es, adj, op, 0⟩ : TN (TVal R))) := by
          obtain ⟨u, d1, _, d3⟩ := (fit_ofTN tn0).1 hfit (n, r0) (Dict.mem_of_get? hr0)
          have : u = .net ns es adj op c := by
            have := d1.symm.trans ht; exact Option.some.inj this
          subst this
          unfold ofTN
          rw [Fit] at d3 ⊢; exact d3
        obtain ⟨u, d1, d2⟩ := hs2.fits hfs y q c1
        refine ⟨u, by rw [b2, c3]; exact d1, ?_⟩
        rw [d2, b3, c3]
        show some (q.legs.map s.edim) = some (((q.legs.map n.comb).map ρ).map tn'.edim)
        rw [List.map_map, List.map_map]
        refine congrArg some (List.map_congr_left fun e he => ?_)
        have he := hs2.cons.legs_exist y q c1 e he
        have he' : n.comb e ∈ (TN.renamed n.comb s).edges.keys := by
          rw [TN.renamed_edges]; exact List.mem_map.2 ⟨e, he, rfl⟩
        have hg : n.comb e ∈ (tn1.graft (TN.renamed n.comb s)).edges.keys := by
          rw [TN.graft_edges hc1 hcr hap, List.mem_append]; exact Or.inr he'
        have e1 : (tn1.graft (TN.renamed n.comb s)).edim (n.comb e) = (TN.renamed n.comb s).edim (n.comb e) := by
          unfold TN.edim; rw [TN.graft_edge_right hc1 hcr hap he']
        exact (((a4.edge _ hg).2.trans e1).trans (TN.renamed_edim hinj he)).symm
    · have hx1 := hedges x hx
      have hshort := (a4.short (hsG hfirm)).2
      -- an edge on a leg of the inner network is on a leg of the result, after renaming
      have hinner : ∀ y ∈ s.edges.keys, (∃ p ∈ tn'.nodes, ρ (n.comb y) ∈ p.2.legs) ∨ tn'.IsFixed (ρ (n.comb y)) := by
        intro y hy
        rcases (hfs hfirm).2 y hy with ⟨p, hp, hyp⟩ | hfx | hc'
        · have hq := (TN.renamed_node hinj).2 ⟨p.1, p.2, Dict.get?_of_mem hs2.cons.nodes_nodup hp, rfl, rfl⟩
          obtain ⟨q', d1, _, d3⟩ := a4.node _ _ ((TN.graft_node hc1 hcr hap).2 (Or.inr hq))
          refine Or.inl ⟨(_, q'), Dict.mem_of_get? d1, ?_⟩
          show _ ∈ q'.legs
          rw [d3]
          exact List.mem_map.2 ⟨_, List.mem_map.2 ⟨y, hyp, rfl⟩, rfl⟩
        · exact Or.inr (hshort _ (hfixR y hfx))
        · exact hc'.1.elim
      rcases hx1 with h1 | h1
      · rcases h.firm hfirm b hb x h1 with ⟨p, hp, hxp⟩ | hfx | ⟨hb', ho⟩
        · have hpg := Dict.get?_of_mem h.cons.nodes_nodup hp
          by_cases hpn : p.1 = n
          · rw [hpn, hr] at hpg
            have hxr : x ∈ r.legs := by rw [Option.some.inj hpg]; exact hxp
            have hlen : r.legs.length = (TN.renamed n.comb s).openE.length := by simpa using congrArg List.length hdim
            obtain ⟨i, hi, hix⟩ := List.getElem_of_mem hxr
            have hi' : i < (TN.renamed n.comb s).openE.length := hlen ▸ hi
            have hz : (r.legs[i], (TN.renamed n.comb s).openE[i]) ∈ r.legs.zip (TN.renamed n.comb s).openE := by
              refine List.mem_iff_getElem.2 ⟨i, by simp [hi, hi'], by simp⟩
            have hρ := a6 _ hz
            simp only [hix] at hρ
            have hmem := List.getElem_mem hi'
            obtain ⟨y, hy, hyo⟩ := List.mem_map.1 (show _ ∈ s.openE.map n.comb from hmem)
            have hin := hinner y (hs2.cons.open_exist y hy)
            rw [hyo, ← hρ, a4.self x hx] at hin
            exact hin.imp id Or.inl
          · have h1' : tn1.nodes.get? p.1 = some p.2 := by rw [hget1, if_neg hpn, hpg]
            obtain ⟨q', d1, _, d3⟩ := a4.node _ _ ((TN.graft_node hc1 hcr hap).2 (Or.inl h1'))
            refine Or.inl ⟨(_, q'), Dict.mem_of_get? d1, ?_⟩
            show _ ∈ q'.legs
            rw [d3, ← a4.self x hx]
            exact List.mem_map.2 ⟨x, hxp, rfl⟩
        · have := hshort _ (hfixL x hfx)
          rw [a4.self x hx] at this
          exact Or.inr (Or.inl this)
        · refine Or.inr (Or.inr ⟨hb', ?_⟩)
          rw [a4.opn, ← a4.self x hx]
          refine List.mem_map.2 ⟨x, ?_, rfl⟩
          rw [TN.graft_eq hc1 hcr hap]; exact ho
      · rw [TN.renamed_edges] at h1
        obtain ⟨y, hy, rfl⟩ := List.mem_map.1 h1
        have hin := hinner y hy
        rw [a4.self _ hx] at hin
        exact hin.imp id Or.inl
    · rcases hedges x hx' with h1 | h1
      · rw [a4.opn, ← a4.self x hx']
        refine List.mem_map.2 ⟨x, ?_, rfl⟩
        rw [TN.graft_eq hc1 hcr hap]; exact h.opens x hx h1
      · exact absurd (hunderE x h1) (hN.edges_under n rn tN hn1 hn2 hn3 x (hc0.open_exist x hx))
    · rcases hedges x hx with h1 | h1
      · exact h.edge_deep x h1
      · rw [TN.renamed_edges] at h1
        obtain ⟨y, hy, rfl⟩ := List.mem_map.1 h1
        refine Or.inr ⟨n, r0, ⟨ns, es, adj, op, c⟩, hr0, ht, y.tup, hs2.edges_ne y hy, Nm.tup_comb n y, fun hl => ?_⟩
        refine ⟨y, ?_, fun ho => ?_, rfl⟩
        · rcases hs2.edge_names y hy with h2 | ⟨n1, ⟨r1, t1, b1, -⟩, -, z, hz, h3⟩
          · exact h2
          · have hne : n1.tup ≠ [] := by
              cases k with
              | zero => exact hs.elim
              | succ k => exact hs.2.2.1.nodes_ne n1 (Dict.mem_keys_of_get? b1)
            rw [h3, List.length_append] at hl
            have := List.length_pos_iff.2 hz
            have := List.length_pos_iff.2 hne
            omega
        · exact a7 _ (List.mem_map.2 ⟨y, hs2.opens y ho hy, rfl⟩) hx

/-- The whole loop. -/
theorem expandLoop_run {G : TN.Glue} (hG : G.Sound) {k : Nat}
    (ih : ∀ s : TN (TVal R), Expandable k s → ∃ s', expand G k s = (s', .ok ()) ∧ Run s [] s')
    {tn0 : TN (TVal R)} (h0 : Expandable (k + 1) tn0) {todo : List Nm} (hn : todo.Nodup) {tn : TN (TVal R)}
    (h : Run tn0 todo tn) : ∃ tn', forLoop (expandNode G (expand G k)) todo tn = (tn', .ok ()) ∧ Run tn0 [] tn' := by
  induction todo generalizing tn with
  | nil => exact ⟨tn, rfl, h⟩
  | cons n todo ih' =>
    rw [List.nodup_cons] at hn
    obtain ⟨t1, a1, a2⟩ := expandNode_run hG ih h0 hn.1 h
    obtain ⟨t2, b1, b2⟩ := ih' hn.2 a2
    refine ⟨t2, ?_, b2⟩
    unfold forLoop
    rw [a1]
    exact b1

/-- `expand` succeeds, and flattens without changing the sum over all edges. -/
theorem expand_run {G : TN.Glue} (hG : G.Sound) (k : Nat) {tn : TN (TVal R)} (h : Expandable k tn) :
    ∃ tn', expand G k tn = (tn', .ok ()) ∧ Run tn [] tn' := by
  induction k generalizing tn with
  | zero => exact h.elim
  | succ k ih =>
    have h' := h
    obtain ⟨hc, hz, hN, hT⟩ := h
    refine expandLoop_run hG (fun s hs => ih hs) h' hc.nodes_nodup (tn := tn) ?_
    refine ⟨hc, hz, fun _ => rfl, rfl, fun n hn => ?_, fun n r hr hn => absurd (Dict.mem_keys_of_get? hr) hn,
      fun n hn => Or.inl hn, fun e he => Or.inl he, hN.nodes_inj, hN.edges_inj, hN.nodes_ne, hN.edges_ne,
      fun P hP h0 n r t hr ht => hP.node tn h0 n r t hr ht, fun _ _ hb => hb, fun hfit n r hr => ?_,
      fun hf => ((firm_ofTN tn).1 hf).1, fun _ _ hb => hb, fun _ h _ => h, fun e he => Or.inl he⟩
    · obtain ⟨r, hr⟩ := Dict.exists_get? hn
      exact ⟨r, r, hr, hr, rfl, rfl⟩
    · obtain ⟨t, h1, h2, _⟩ := (fit_ofTN tn).1 hfit (n, r) (Dict.mem_of_get? hr)
      exact ⟨t, h1, h2⟩

end TVal

end Verif
