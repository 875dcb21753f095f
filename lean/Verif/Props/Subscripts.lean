import Verif.Model.Subscripts
import Verif.Lemmas.PatchOrder
import Verif.Lemmas.Evolve
/-!
# C75: the einsums of the steps of a contraction order
-/

namespace Verif

variable {R : Type} [CommSemiring R] {τ : Type}

/-- Renaming the edges of an Einstein sum. -/
theorem einsum_letters {E E' : Type} [DecidableEq E] [DecidableEq E'] {dom : E → Finset Nat} {dom' : E' → Finset Nat} {fs : List (Factor E R)} {opn : List E}
    (f : E → E') (hf : ∀ e ∈ usedEdges fs opn, ∀ e' ∈ usedEdges fs opn, f e = f e' → e = e') (hd : ∀ e ∈ usedEdges fs opn, dom e = dom' (f e)) (idx : List Nat) :
    einsum dom' (fs.map fun x => ⟨x.legs.map f, x.ten⟩) (opn.map f) idx = einsum dom fs opn idx := by
  have hn : ((usedEdges fs opn).map f).Nodup := List.Nodup.map_on hf (nodup_usedEdges fs opn)
  rw [einsum_eq_of_mem hn]
  · unfold einsum
    have h1 : ((usedEdges fs opn).map fun e => (e, f e)).map Prod.fst = usedEdges fs opn := by
      rw [List.map_map]; exact List.map_id _
    have h2 : ((usedEdges fs opn).map fun e => (e, f e)).map Prod.snd = (usedEdges fs opn).map f := by
      rw [List.map_map]; rfl
    have key := sumOver_transfer (R := R) (dom := dom) (dom' := dom') ((usedEdges fs opn).map fun e => (e, f e)) (by rw [h1]; exact nodup_usedEdges fs opn) (by rw [h2]; exact hn)
      (fun p hp => by obtain ⟨e, he, rfl⟩ := List.mem_map.1 hp; exact hd e he)
      (f := fun a => if opn.map a = idx then prodAt fs a else 0)
      (g := fun a => if (opn.map f).map a = idx then prodAt (fs.map fun x => (⟨x.legs.map f, x.ten⟩ : Factor E' R)) a else 0)
      (a := fun _ => 0) (a' := fun _ => 0) (fun b c _ _ hbc => by
        have hbc : ∀ e ∈ usedEdges fs opn, b e = c (f e) := fun e he => hbc (e, f e) (List.mem_map.2 ⟨e, he, rfl⟩)
        have e1 : (opn.map f).map c = opn.map b := by
          rw [List.map_map]
          exact List.map_congr_left fun e he => (hbc e (mem_usedEdges.2 (Or.inr he))).symm
        have e2 : prodAt (fs.map fun x => (⟨x.legs.map f, x.ten⟩ : Factor E' R)) c = prodAt fs b := by
          unfold prodAt
          rw [List.map_map]
          congr 1
          refine List.map_congr_left fun x hx => ?_
          simp only [Function.comp, Factor.at, List.map_map]
          congr 1
          exact List.map_congr_left fun e he => (hbc e (mem_usedEdges.2 (Or.inl ⟨x, hx, he⟩))).symm
        simp only [e1, e2])
    rw [h1, h2] at key
    exact key.symm
  · intro e'
    rw [List.mem_map, mem_usedEdges]
    constructor
    · rintro ⟨e, he, rfl⟩
      rcases mem_usedEdges.1 he with ⟨x, hx, hex⟩ | he
      · exact Or.inl ⟨_, List.mem_map.2 ⟨x, hx, rfl⟩, List.mem_map.2 ⟨e, hex, rfl⟩⟩
      · exact Or.inr (List.mem_map.2 ⟨e, he, rfl⟩)
    · rintro (⟨x, hx, hex⟩ | he)
      · obtain ⟨y, hy, rfl⟩ := List.mem_map.1 hx
        obtain ⟨e, he, rfl⟩ := List.mem_map.1 hex
        exact ⟨e, mem_usedEdges.2 (Or.inl ⟨y, hy, he⟩), rfl⟩
      · obtain ⟨e, heo, rfl⟩ := List.mem_map.1 he
        exact ⟨e, mem_usedEdges.2 (Or.inr heo), rfl⟩

theorem NoFix.freeEdges {tn : TN τ} (hx : NoFix tn) : tn.freeEdges = tn.edges.keys := by
  unfold TN.freeEdges
  rw [List.filter_eq_self]
  intro e he
  obtain ⟨r, hr⟩ := Dict.exists_get? he
  rw [hr, Option.bind_some, hx e r hr]
  rfl

theorem NoFix.filter {tn : TN τ} (hx : NoFix tn) {es : List Nm} (he : ∀ e ∈ es, e ∈ tn.edges.keys) :
    es.filter (fun e => tn.freeEdges.contains e) = es := by
  rw [List.filter_eq_self]
  intro e h
  rw [hx.freeEdges]
  exact List.contains_iff_mem.2 (he e h)

theorem find_zip {α : Type} {f : α → Nat} {g : α → Nat} {e : α} : ∀ {l : List α}, e ∈ l → (∀ x ∈ l, f x = f e → x = e) →
    (((l.map f).zip (l.map g)).find? fun p => p.1 == f e).elim 0 Prod.snd = g e := by
  intro l
  induction l with
  | nil => intro h; cases h
  | cons x l ih =>
    intro he hi
    rw [List.map_cons, List.map_cons, List.zip_cons_cons, List.find?_cons]
    by_cases hx : f x = f e
    · rw [hi x (by simp) hx]; simp
    · have : (f x == f e) = false := by simpa using hx
      rw [this]
      refine ih ?_ fun y hy => hi y (List.mem_cons_of_mem _ hy)
      rcases List.mem_cons.1 he with rfl | he
      · exact absurd rfl hx
      · exact he

/-- The einsum given by `subscripts` for a list of all nodes computes the value of the network. -/
theorem subscripts_eval (val : τ → List Nat → R) {tn : TN τ} (hc : tn.Consistent) (hx : NoFix tn)
    (hdim : ∀ n r, tn.nodes.get? n = some r → ∀ e ∈ r.legs, ∃ er d, tn.edges.get? e = some er ∧ er.dim = some d)
    (hopen : ∀ e ∈ tn.openE, ∃ p ∈ tn.nodeLegs, e ∈ p.2) {ns : List Nm} (hp : ns.Perm tn.nodes.keys)
    {env : Nm → List Nat → R} (henv : ∀ n r, tn.nodes.get? n = some r → env n = (r.factor val).ten) :
    ∃ s, tn.subscripts ns = .ok s ∧ s.eval (ns.map env) = tn.value val := by
  have hns : ∀ n ∈ ns, n ∈ tn.nodes.keys := fun n hn => hp.subset hn
  let L : Nm → List Nm := fun n => ((tn.nodes.get? n).map fun r => r.legs).getD []
  have hL : ∀ n r, tn.nodes.get? n = some r → L n = r.legs := fun n r h => by simp [L, h]
  have hLe : ∀ n ∈ ns, ∀ e ∈ L n, e ∈ tn.edges.keys := fun n hn e he => by
    obtain ⟨r, hr⟩ := Dict.exists_get? (hns n hn)
    rw [hL n r hr] at he
    exact hc.legs_exist n r hr e he
  let f : Nm → Nat := fun e => tn.edges.keys.idxOf e
  let g : Nm → Nat := fun e => ((tn.edges.get? e).bind EdgeRec.dim).getD 2
  have hfi : ∀ e ∈ tn.edges.keys, ∀ e' ∈ tn.edges.keys, f e = f e' → e = e' := fun e he e' _ h => (List.idxOf_inj he).1 h
  have hlet : ∀ es : List Nm, (∀ e ∈ es, e ∈ tn.edges.keys) → tn.lettersOf es = es.map f ∧ tn.dimsOf es = es.map g := fun es he => by
    unfold TN.lettersOf TN.dimsOf
    rw [hx.filter he, hx.freeEdges]
    exact ⟨rfl, rfl⟩
  have hall : ns.all tn.nodes.has = true := List.all_eq_true.2 fun n hn => Dict.has_iff.2 (hns n hn)
  refine ⟨⟨ns.map fun n => (L n).map f, tn.openE.map f, ns.map fun n => (L n).map g⟩, ?_, ?_⟩
  · unfold TN.subscripts
    rw [if_pos hall]
    congr 2
    · exact List.map_congr_left fun n hn => (hlet _ (hLe n hn)).1
    · exact (hlet _ fun e he => hc.open_exist e he).1
    · exact List.map_congr_left fun n hn => (hlet _ (hLe n hn)).2
  · have hfac : (tn.factors val).Perm (ns.map fun n => (⟨L n, env n⟩ : Factor Nm R)) := by
      have h1 : tn.factors val = tn.nodes.keys.map fun n => (⟨L n, env n⟩ : Factor Nm R) := by
        unfold TN.factors Dict.keys
        rw [List.map_map]
        refine List.map_congr_left fun p hp => ?_
        have hg := Dict.get?_of_mem hc.nodes_nodup (show (p.1, p.2) ∈ tn.nodes from hp)
        simp only [Function.comp]
        rw [hL _ _ hg, henv _ _ hg]
        rfl
      rw [h1]
      exact (hp.map _).symm
    have hused : ∀ e ∈ usedEdges (ns.map fun n => (⟨L n, env n⟩ : Factor Nm R)) tn.openE, ∃ n ∈ ns, e ∈ L n := by
      intro e he
      rcases mem_usedEdges.1 he with ⟨x, hx, hex⟩ | he
      · obtain ⟨n, hn, rfl⟩ := List.mem_map.1 hx
        exact ⟨n, hn, hex⟩
      · obtain ⟨p, hp', hep⟩ := hopen e he
        obtain ⟨r, hr, hl⟩ := (mem_nodeLegs hc).1 hp'
        exact ⟨p.1, hp.symm.subset (Dict.mem_keys_of_get? hr), by rw [hL _ _ hr, hl]; exact hep⟩
    funext idx
    unfold TN.value Subs.eval
    rw [einsum_perm hfac, ← einsum_letters (dom' := fun l => Finset.range (Subs.dim ⟨ns.map fun n => (L n).map f, tn.openE.map f, ns.map fun n => (L n).map g⟩ l)) f]
    · congr 1
      rw [List.zipWith_map, List.map_map, List.zipWith_self]
      rfl
    · intro e he e' he' h
      obtain ⟨n, hn, hen⟩ := hused e he
      obtain ⟨n', hn', hen'⟩ := hused e' he'
      exact hfi e (hLe n hn e hen) e' (hLe n' hn' e' hen') h
    · intro e he
      obtain ⟨n, hn, hen⟩ := hused e he
      obtain ⟨r, hr⟩ := Dict.exists_get? (hns n hn)
      obtain ⟨er, d, her, hd⟩ := hdim n r hr e (hL n r hr ▸ hen)
      have e1 : tn.dom e = Finset.range (g e) := by
        rw [dom_eq_range her (hx e er her) hd]
        simp [g, her, hd]
      rw [e1]
      congr 1
      unfold Subs.dim
      have h1 : (ns.map fun n => (L n).map f).flatten = (ns.flatMap L).map f := by
        rw [List.flatMap, List.map_flatten, List.map_map]; rfl
      have h2 : (ns.map fun n => (L n).map g).flatten = (ns.flatMap L).map g := by
        rw [List.flatMap, List.map_flatten, List.map_map]; rfl
      dsimp only
      rw [h1, h2]
      refine (find_zip (List.mem_flatMap.2 ⟨n, hn, hen⟩) fun e' he' h => ?_).symm
      obtain ⟨n', hn', hen'⟩ := List.mem_flatMap.1 he'
      exact hfi e' (hLe n' hn' e' hen') e (hLe n hn e hen) h

/-- Every open edge is on some node. -/
def Attached (tn : TN τ) : Prop := ∀ e ∈ tn.openE, ∃ p ∈ tn.nodeLegs, e ∈ p.2

theorem Attached.encapsulated [NetTensor τ] {D : Nm → Nat} {tn tn' stn : TN τ} {ns opn : List Nm} {z : Nm} (ha : Attached tn)
    (h : Encapsulated D tn tn' stn ns opn z) : Attached tn' := by
  intro e he
  rw [h.openE] at he
  obtain ⟨p, hp, hep⟩ := ha e he
  rw [h.nodeLegs]
  rcases List.mem_append.1 (h.sub_legs.subset hp) with hp | hp
  · exact ⟨(z, opn), by simp, (h.mem e).2 ⟨⟨p, hp, hep⟩, Or.inr he⟩⟩
  · exact ⟨p, List.mem_append_left _ hp, hep⟩

/-- The tensors after `encapsulate`. -/
theorem encapsulate_nodes [NetTensor τ] {tn tn' stn : TN τ} {ns opn : List Nm} {z ident n : Nm} (hs : tn.subtn ns opn = .ok stn)
    (h : tn.encapsulate ns opn (some z) ident = (tn', .ok n)) {m : Nm} {r : NodeRec τ} (hr : tn'.nodes.get? m = some r) :
    (m = z ∧ r.ten = some (NetTensor.ofNet stn)) ∨ m ≠ z ∧ tn.nodes.get? m = some r := by
  unfold TN.encapsulate at h
  rw [hs] at h
  obtain ⟨hn, hnt, legs, frozen, E', hl, htn', hE', hdE⟩ := TN.addNode_ok h
  rw [htn'] at hr
  simp only [Option.getD_some] at hn
  subst hn
  simp only [Dict.get?_set] at hr
  split at hr
  · next he => cases hr; exact Or.inl ⟨he.symm, rfl⟩
  · next he =>
    refine Or.inr ⟨fun h => he h.symm, ?_⟩
    have : Dict.get? (tn.nodes.filterKeys fun m => !(ns.contains m)) m = some r := hr
    rw [Dict.get?_filterKeys] at this
    split at this
    · exact this
    · cases this

/-- The dimensions of the legs of a sub-network. -/
theorem subtn_dims [HasShape τ] {tn stn : TN τ} {ns opn : List Nm} (hr : tn.Ready) (h : tn.subtn ns opn = .ok stn) :
    ∀ n r, stn.nodes.get? n = some r → (∀ e ∈ r.legs, ∃ er d, stn.edges.get? e = some er ∧ er.dim = some d) ∧
      ∃ r', tn.nodes.get? n = some r' ∧ r.ten = r'.ten := by
  obtain ⟨hns, hopn, f, E1, hf, hnodes, hopE, hadj, hE1, hk, hEs, hdim⟩ := TN.subtn_ok h
  intro n r hn
  have hmem := Dict.mem_of_get? hn
  rw [hnodes] at hmem
  obtain ⟨m, hm, hmr⟩ := List.mem_map.1 hmem
  simp only [Prod.mk.injEq] at hmr
  obtain ⟨rfl, rfl⟩ := hmr
  obtain ⟨r0, h0, hten, hfr⟩ := hf m hm
  refine ⟨fun e he => ?_, r0, h0, by rw [hfr]⟩
  obtain ⟨t, sh, ht, hsh, hlen, hleg⟩ := hr.nodes m r0 h0
  obtain ⟨i, hi, hie⟩ := List.getElem_of_mem he
  have hie' : (f m).legs[i]? = some e := List.getElem?_eq_some_iff.2 ⟨hi, hie⟩
  have hl : (f m).legs = r0.legs := by rw [hfr]
  have hi' : i < sh.length := by rw [hlen, ← hl]; exact hi
  obtain ⟨r1, hr1, hd1⟩ := (hdim m hm t (sh.map some) (by rw [hfr]; exact ht) hsh).2 i e sh[i] hie' (by simp [hi'])
  have := hEs e
  rw [hr1, Option.map_some] at this
  by_cases hcl : e ∈ tn.closedOfNodes ns
  · rw [if_pos hcl] at this
    obtain ⟨er, her, hed⟩ := hleg i e (hl ▸ hie')
    rw [her, Option.getD_some] at this
    exact ⟨er, sh[i], this, by rw [hed]; simp [hi']⟩
  · rw [if_neg hcl] at this
    exact ⟨r1, sh[i], this, hd1⟩

theorem TN.Ready.dims [HasShape τ] {tn : TN τ} (hr : tn.Ready) :
    ∀ n r, tn.nodes.get? n = some r → ∀ e ∈ r.legs, ∃ er d, tn.edges.get? e = some er ∧ er.dim = some d := by
  intro n r hn e he
  obtain ⟨t, sh, ht, hsh, hlen, hleg⟩ := hr.nodes n r hn
  obtain ⟨i, hi, hie⟩ := List.getElem_of_mem he
  obtain ⟨er, her, hed⟩ := hleg i e (List.getElem?_eq_some_iff.2 ⟨hi, hie⟩)
  exact ⟨er, sh[i]'(by omega), her, by rw [hed]; simp⟩

/-- **C75**: `order_to_subscripts` of a contraction order that ends with the step `'#'` succeeds with one einsum per step; carrying them out one after the
other on the tensors of the network computes the value of the network.  The network has no fixed edges, known dimensions, and every open edge is on a
node. -/
theorem c75_subscripts [NetTensor τ] {val : τ → List Nat → R} (hval : ∀ t : TN τ, val (NetTensor.ofNet t) = t.value val) {perm : List Nm → List Nm}
    (hperm : ∀ l, (perm l).Perm l) : ∀ {order : List OrderStep} {tn : TN τ}, tn.Consistent → tn.Ready → NoFix tn → Attached tn → order ≠ [] →
    ValidOrder tn.nodes.keys order (.str "#") → (∀ s ∈ order.dropLast, s.2 ≠ .str "#") → ∀ {env : Nm → List Nat → R},
    (∀ n r, tn.nodes.get? n = some r → env n = (r.factor val).ten) →
    ∃ subs, orderToSubs perm tn order = .ok subs ∧ subs.length = order.length ∧ Subs.run env (order.zip subs) (.str "#") = tn.value val := by
  intro order
  induction order with
  | nil => intro tn _ _ _ _ h; exact absurd rfl h
  | cons s o ih =>
    intro tn hc hr hx ha _ hv hlast env henv
    obtain ⟨xs, z⟩ := s
    generalize hK : tn.nodes.keys = K at hv
    cases hv with
    | @step _ _ rest _ _ _ hp hxs hz hv =>
    subst hK
    by_cases ho : o = []
    · subst ho
      have hzr : z = .str "#" ∧ rest = [] := by
        cases hv; exact ⟨rfl, rfl⟩
      obtain ⟨rfl, rfl⟩ := hzr
      rw [List.append_nil] at hp
      obtain ⟨s, h1, h2⟩ := subscripts_eval val hc hx hr.dims ha hp.symm henv
      refine ⟨[s], ?_, rfl, ?_⟩
      · unfold orderToSubs
        rw [subsLoop, if_pos rfl]
        simp [h1]
      · simp [Subs.run, h2]
    · have hzh : z ≠ .str "#" := hlast (xs, z) (by
        cases o with
        | nil => exact absurd rfl ho
        | cons y o => simp)
      have hnd : (xs ++ rest).Nodup := hp.nodup_iff.1 hc.nodes_nodup
      have hin : ∀ n ∈ xs, n ∈ tn.nodes.keys := fun n hn => hp.symm.subset (List.mem_append_left _ hn)
      have hdisj : ∀ n ∈ rest, n ∉ xs := fun n hn hn' => (List.nodup_append.1 hnd).2.2 n hn' n hn rfl
      have hfil : (tn.nodes.keys.filter fun m => !(xs.contains m)).Perm rest := by
        refine (hp.filter _).trans ?_
        rw [List.filter_append, List.filter_eq_nil_iff.2 fun n hn => by simpa using hn, List.nil_append,
          List.filter_eq_self.2 fun n hn => by simpa using hdisj n hn]
      obtain ⟨tn', stn, hs, he, E⟩ := encapsulate_loose (ident := z) (opn := perm (tn.boundaryOfNodes xs)) hc hr.loose hx (List.nodup_append.1 hnd).1 hin
        (fun h => hz (hfil.subset h)) fun e => (hperm _).mem_iff
      have hr' := (encapsulate_ready hc hr (by simp) he).1
      have hkeys : tn'.nodes.keys.Perm (z :: rest) := by
        obtain ⟨_, _, _, _, hk⟩ := encapsulate_names (by simp) he
        rw [hk]
        exact (List.perm_append_singleton _ _).trans (hfil.cons z)
      -- the step
      have hsd := subtn_dims hr hs
      obtain ⟨s, h1, h2⟩ := subscripts_eval val E.sub_cons E.sub_nofix (fun n r hn => (hsd n r hn).1)
        (fun e heo => by rw [E.sub_open] at heo; exact ((E.mem e).1 heo).1) (ns := xs) (by rw [E.sub_keys]) (env := env) (fun n r hn => by
          obtain ⟨r', hr', ht⟩ := (hsd n r hn).2
          rw [henv n r' hr']
          simp only [NodeRec.factor, ht])
      obtain ⟨subs, g1, g2, g3⟩ := ih E.cons hr' E.nofix (ha.encapsulated E) ho (hv.perm hkeys.symm) (fun s hs => hlast s (by
        cases o with
        | nil => exact absurd rfl ho
        | cons y o => exact List.mem_cons_of_mem _ hs)) (env := Function.update env z (s.eval (xs.map env))) (fun n r hn => by
          rcases encapsulate_nodes hs he hn with ⟨rfl, ht⟩ | ⟨hne, hn'⟩
          · rw [Function.update_self, h2]
            simp only [NodeRec.factor, ht, hval]
          · rw [Function.update_of_ne hne, henv n r hn'])
      refine ⟨s :: subs, ?_, by simp [g2], ?_⟩
      · unfold orderToSubs at g1 ⊢
        rw [subsLoop, if_neg hzh, hs, he]
        dsimp only
        rw [h1]
        dsimp only
        revert g1
        rcases subsLoop perm o tn' with e | ⟨l, tn2⟩
        · intro g1; cases g1
        · dsimp only
          have : ((xs, z) :: o).getLast? = o.getLast? := by
            cases o with
            | nil => exact absurd rfl ho
            | cons y o => simp
          rw [this]
          rcases o.getLast? with _ | o'
          · intro g1; cases g1; rfl
          · dsimp only
            rcases tn2.subscripts o'.1 with e | s'
            · intro g1; cases g1
            · intro g1; cases g1; rfl
      · rw [List.zip_cons_cons, Subs.run, g3]
        exact funext fun idx => (encapsulate_value hval hc hr (hx.boundary _) (by simp) he).1 idx

/-- **C75**, for networks of arrays, sums, views and networks. -/
theorem c75_values [Star R] {perm : List Nm → List Nm} (hperm : ∀ l, (perm l).Perm l) {order : List OrderStep} {tn : TN (TVal R)} (hc : tn.Consistent)
    (hr : tn.Ready) (hx : NoFix tn) (ha : Attached tn) (ho : order ≠ []) (hv : ValidOrder tn.nodes.keys order (.str "#"))
    (hl : ∀ s ∈ order.dropLast, s.2 ≠ .str "#") :
    ∃ subs, orderToSubs perm tn order = .ok subs ∧ subs.length = order.length ∧
      Subs.run (fun n => (((tn.nodes.get? n).bind NodeRec.ten).elim (fun _ => 0) TVal.val)) (order.zip subs) (.str "#") = (TVal.ofTN tn).val := by
  obtain ⟨subs, h1, h2, h3⟩ := c75_subscripts (val := TVal.val) (fun t => TVal.val_ofTN t) hperm hc hr hx ha ho hv hl
    (env := fun n => (((tn.nodes.get? n).bind NodeRec.ten).elim (fun _ => 0) TVal.val)) (fun n r hn => by
      simp only [hn, Option.bind_some, NodeRec.factor]
      cases r.ten <;> rfl)
  exact ⟨subs, h1, h2, by rw [h3, TVal.val_ofTN]⟩

/-- **C75**: a step named `'#'` is needed: without it, the operands of the last step are looked up after they have been encapsulated. -/
theorem c75_hash_violated {perm : List Nm → List Nm} [NetTensor τ] {tn tn' : TN τ} {xs : List Nm} {z : Nm} (hz : z ≠ .str "#")
    {stn : TN τ} (hs : tn.subtn xs (perm (tn.boundaryOfNodes xs)) = .ok stn)
    (he : tn.encapsulate xs (perm (tn.boundaryOfNodes xs)) (some z) z = (tn', .ok z)) (hx : ∃ x ∈ xs, x ≠ z) :
    orderToSubs perm tn [(xs, z)] = .error .key := by
  obtain ⟨_, hnd, hin, _, hk⟩ := encapsulate_names (by simp) he
  obtain ⟨_, _, f, _, _, hnodes, _⟩ := TN.subtn_ok hs
  have hall : xs.all stn.nodes.has = true := List.all_eq_true.2 fun n hn => Dict.has_iff.2 (by
    rw [hnodes]
    exact List.mem_map.2 ⟨(n, f n), List.mem_map.2 ⟨n, hn, rfl⟩, rfl⟩)
  have hnot : xs.all tn'.nodes.has = false := by
    obtain ⟨x, hx, hxz⟩ := hx
    rw [List.all_eq_false]
    refine ⟨x, hx, fun h => ?_⟩
    have := Dict.has_iff.1 h
    rw [hk, List.mem_append, List.mem_filter, List.mem_singleton] at this
    rcases this with ⟨_, h⟩ | h
    · simp [hx] at h
    · exact hxz h
  unfold orderToSubs
  rw [subsLoop, if_neg hz, hs, he]
  simp [subsLoop, TN.subscripts, hall, hnot]

/-- Two steps for the network of C18's example. -/
def subsOrder : List OrderStep := [([.int 2, .int 0], .int 7), ([.int 7, .int 1], .str "#")]

/-- The hypotheses hold for the example of C18. -/
example : ∃ (tn : TN (TVal Nat)) (subs : List Subs), TN.run {} encapsulateExample = some tn ∧ orderToSubs id tn subsOrder = .ok subs ∧
    Subs.run (fun n => (((tn.nodes.get? n).bind NodeRec.ten).elim (fun _ => 0) TVal.val)) (subsOrder.zip subs) (.str "#") = (TVal.ofTN tn).val ∧
    (TVal.ofTN tn).val [1] = 350 := by
  obtain ⟨subs, h1, _, h2⟩ := c75_values (perm := id) (order := subsOrder) (tn := (TN.run ({} : TN (TVal Nat)) encapsulateExample).getD {}) (fun l => .refl _)
    (c11_consistent_partial (ops := encapsulateExample) ⟨trivial, trivial, trivial, trivial, trivial⟩ rfl) (TN.ready_of_readyB rfl)
    (fun e r hr => by
      have : ∀ p ∈ ([(.str "a", { dim := some 2 }), (.str "b", { dim := some 3 }), (.str "c", { dim := some 2 })] :
          List (Nm × EdgeRec)), p.2.fix = none := by decide
      exact this (e, r) (Dict.mem_of_get? hr))
    (fun e he => ⟨(.int 0, [.str "a", .str "b"]), by decide +kernel, by
      have : e = .str "a" := List.mem_singleton.1 he
      rw [this]; simp⟩)
    (by simp [subsOrder])
    (.step (rest := [.int 1]) (by decide +kernel) (by simp) (by decide +kernel) (.step (rest := []) (by decide +kernel) (by simp) (by simp) (.done _)))
    (by simp [subsOrder])
  exact ⟨_, subs, rfl, h1, h2, by decide⟩

end Verif
