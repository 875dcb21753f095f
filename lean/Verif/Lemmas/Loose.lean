import Verif.Lemmas.Encaps
import Verif.Lemmas.Template
/-!
# Encapsulating in networks whose tensors may have more dimensions than the node has legs

`fix()` drops the fixed legs of a node but leaves its tensor alone, so afterwards the shape of the tensor is read
against the remaining legs position by position.
-/

namespace Verif

variable {τ : Type}

/-- The dimensions of every tensor begin with those of the legs of its node. -/
structure TN.Loose [HasShape τ] (D : Nm → Nat) (tn : TN τ) : Prop where
  nodes : ∀ n r, tn.nodes.get? n = some r →
    ∃ t ex, r.ten = some t ∧ HasShape.shape t = some ((r.legs.map D ++ ex).map some)
  legs : ∀ n r, tn.nodes.get? n = some r → ∀ e ∈ r.legs, ∃ er, tn.edges.get? e = some er ∧ er.dim = some (D e)
  opens : ∀ e ∈ tn.openE, ∃ er, tn.edges.get? e = some er ∧ er.dim = some (D e)

/-- All tensors have only the dimension `d`. -/
def TN.Even [HasShape τ] (d : Nat) (tn : TN τ) : Prop :=
  ∀ n r t sh, tn.nodes.get? n = some r → r.ten = some t → HasShape.shape t = some sh → ∀ x ∈ sh, x = some d

theorem TN.addNodeEdges_loose {tn : TN τ} {D : Nm → Nat} {S : List Nm} {sh ex : List (Option Nat)} {i : Nat} {es : List Nm}
    (hf : tn.Fits D S) (hS : ∀ e ∈ es, e ∈ S) (hsh : sh.drop i = (es.map D).map some ++ ex) :
    ∃ tn', tn.addNodeEdges (some sh) i es = (tn', .ok ()) ∧ tn'.nodes = tn.nodes ∧ tn'.Fits D S ∧
      ∀ x, x ∈ tn'.edges.keys ↔ x ∈ tn.edges.keys ∨ x ∈ es := by
  induction es generalizing tn i with
  | nil => exact ⟨tn, rfl, rfl, hf, by simp⟩
  | cons e es ih =>
    obtain ⟨t1, k1, k2, k3, k4⟩ := addEdge_total hf (hS e (by simp))
    have hi : sh[i]? = some (some (D e)) := by
      have : (sh.drop i)[0]? = some (some (D e)) := by rw [hsh]; rfl
      simpa using this
    obtain ⟨t2, m1, m2, m3, m4⟩ := ih (tn := t1) (i := i + 1) k3 (fun x hx => hS x (by simp [hx])) (by
      rw [← List.drop_drop, hsh]; rfl)
    refine ⟨t2, ?_, m2.trans k2, m3, fun x => ?_⟩
    · rw [addNodeEdges, dimAt, hi]
      dsimp only
      rw [k1]
      exact m1
    · rw [m4, k4, List.mem_cons, or_assoc]

theorem zip_prefix {es : List Nm} {D : Nm → Nat} {ex : List (Option Nat)} :
    es.zip ((es.map D).map some ++ ex) = es.map fun e => (e, some (D e)) := by
  induction es with
  | nil => simp
  | cons e es ih => simp only [List.map_cons, List.cons_append, List.zip_cons_cons, ih]

/-- `add_node` with a new name succeeds when the first dimensions of the tensor fit. -/
theorem TN.addNode_loose [HasShape τ] {tn : TN τ} {n i : Nm} {es S : List Nm} {t : τ} {D : Nm → Nat} {ex : List (Option Nat)}
    (hn : n ∉ tn.nodes.keys) (hs : HasShape.shape t = some ((es.map D).map some ++ ex)) (hf : tn.Fits D S)
    (hS : ∀ e ∈ es, e ∈ S) :
    ∃ tn', tn.addNode (some n) i (some es) t false = (tn', .ok n) ∧ tn'.Fits D S := by
  have hl : newLegs (some es) (HasShape.shape t) = some (es, false) := rfl
  generalize hfr : false = fr at hl
  unfold addNode
  dsimp only
  rw [if_neg (by rw [show tn.nameTaken (some n) = false from Dict.has_eq_false.2 hn]; simp), hl, hs]
  dsimp only
  rw [show (some n).getD i = n from rfl]
  obtain ⟨t1, k1, k2, k3, k4⟩ := addNodeEdges_loose (tn := tn.putNode n es fr) (D := D) (S := S) (i := 0)
    (sh := (es.map D).map some ++ ex) (ex := ex) hf hS rfl
  rw [k1]
  dsimp only
  have hget : t1.nodes.get? n = some { legs := es, ten := (tn.nodes.get? n).bind NodeRec.ten, frozen := fr } := by
    rw [k2]; unfold putNode; dsimp only; rw [Dict.get?_set, if_pos rfl]
  unfold updateNode
  dsimp only
  rw [hget]
  dsimp only
  rw [hs]
  simp only [legDims]
  rw [if_pos (by simp)]
  dsimp only
  obtain ⟨t2, m1, m2, m3, m4⟩ := updateDimension_total (D := D) (S := S)
    (tn := { t1 with nodes := t1.nodes.set n { legs := es, ten := some t, frozen := fr },
                     adj := addAdjs t1.adj (es.map fun e => (n, e)) })
    (l := (es.zip ((es.map D).map some ++ ex)).foldl (fun d p => d.set p.1 p.2) []) k3 (fun p hp => by
      rcases mem_foldl_set hp with h | h
      · simp at h
      · have h1 : p.1 ∈ es := (List.of_mem_zip h).1
        refine ⟨hS _ h1, (k4 _).2 (Or.inr h1), ?_⟩
        rw [zip_prefix] at h
        obtain ⟨x, _, rfl⟩ := List.mem_map.1 h
        rfl)
  rw [m1]
  dsimp only
  subst hfr
  exact ⟨t2, rfl, m3⟩

theorem subtnLoop_loose [HasShape τ] {tn : TN τ} {D : Nm → Nat} (hr : tn.Loose D) {S : List Nm}
    (hS : ∀ n r, tn.nodes.get? n = some r → ∀ e ∈ r.legs, e ∈ S) :
    ∀ (ns : List Nm) (stn : TN τ), ns.Nodup → (∀ n ∈ ns, n ∈ tn.nodes.keys) → (∀ n ∈ ns, n ∉ stn.nodes.keys) →
      stn.Fits D S → ∃ stn', forLoop (TN.subtnNodes tn) ns stn = (stn', .ok ()) ∧ stn'.Fits D S := by
  intro ns
  induction ns with
  | nil => exact fun stn _ _ _ h => ⟨stn, rfl, h⟩
  | cons n ns ih =>
    intro stn hnd hin hout hfit
    obtain ⟨r, hrn⟩ := Dict.exists_get? (hin n List.mem_cons_self)
    obtain ⟨t, ex, ht, hsh⟩ := hr.nodes n r hrn
    rw [List.map_append] at hsh
    obtain ⟨s1, hs1, hf1⟩ := TN.addNode_loose (tn := stn) (n := n) (i := n) (es := r.legs) (t := t) (D := D)
      (hout n List.mem_cons_self) hsh hfit (hS n r hrn)
    have hstep : TN.subtnNodes tn stn n = (s1, .ok ()) := by
      unfold TN.subtnNodes
      rw [hrn]
      dsimp only
      rw [ht]
      dsimp only
      rw [hs1]
    obtain ⟨_, r', hcopy, hn1, _⟩ := TN.subtnNodes_ok hstep
    obtain ⟨s2, hs2, hf2⟩ := ih s1 (List.nodup_cons.1 hnd).2 (fun m hm => hin m (List.mem_cons_of_mem _ hm))
      (fun m hm hc => by
        rw [hn1, Dict.keys_append] at hc
        rcases List.mem_append.1 hc with hc | hc
        · exact hout m (List.mem_cons_of_mem _ hm) hc
        · simp only [Dict.keys, List.map_cons, List.map_nil, List.mem_singleton] at hc
          exact (List.nodup_cons.1 hnd).1 (hc ▸ hm)) hf1
    refine ⟨s2, ?_, hf2⟩
    rw [forLoop, hstep]
    exact hs2

/-- The network a sub-network is copied into. -/
theorem TN.emptyOpen_consistent (opn : List Nm) : (TN.emptyOpen opn : TN τ).Consistent := by
  obtain ⟨h1, h2, h3, h4⟩ := TN.emptyOpen_spec (τ := τ) opn
  refine ⟨by rw [h1]; exact List.nodup_nil, h4.grow.nodup List.nodup_nil, fun n r hr => ?_, fun e he => ?_, fun n e => ?_, ?_⟩
  · rw [h1] at hr; simp [Dict.get?] at hr
  · rw [h3] at he; exact (h4.keys e).2 (Or.inr he)
  · rw [h1, h2]; simp [Dict.get?]
  · rw [h2]; exact List.nodup_nil

theorem TN.Consistent.subtn [HasShape τ] {tn stn : TN τ} {ns opn : List Nm} (h : tn.subtn ns opn = .ok stn) :
    stn.Consistent := by
  unfold TN.subtn at h
  split at h
  · dsimp only at h
    split at h
    · have key : ∀ (l : List Nm) (s s' : TN τ), s.Consistent → forLoop (TN.subtnNodes tn) l s = (s', .ok ()) →
          s'.Consistent := by
        intro l
        induction l with
        | nil => intro s s' hs hl; rw [forLoop] at hl; cases hl; exact hs
        | cons n l ih =>
          intro s s' hs hl
          obtain ⟨s1, h1, h2⟩ := forLoop_cons_ok hl
          refine ih s1 s' ?_ h2
          unfold TN.subtnNodes at h1
          split at h1
          · simp at h1
          split at h1
          · simp at h1
          split at h1
          · next s2 m hm =>
            simp only [Prod.mk.injEq, and_true] at h1
            subst h1
            exact hs.addNode (by simp) hm
          · simp at h1
      split at h
      · next s hl =>
        simp only [Except.ok.injEq] at h
        subst h
        refine (key ns _ _ (TN.emptyOpen_consistent opn) hl).withEdges ?_
        unfold Dict.keys
        rw [List.map_map]
        rfl
      · simp at h
    · simp at h
  · simp at h

/-- What a successful step of `encapsulate` leaves. -/
structure Encapsulated [NetTensor τ] (D : Nm → Nat) (tn tn' stn : TN τ) (ns opn : List Nm) (z : Nm) : Prop where
  cons : tn'.Consistent
  loose : tn'.Loose D
  nofix : NoFix tn'
  even : ∀ d, tn.Even d → tn'.Even d
  openE : tn'.openE = tn.openE
  nodeLegs : tn'.nodeLegs = (tn.nodeLegs.filter fun p => !(ns.contains p.1)) ++ [(z, opn)]
  edges : ∀ e ∈ tn.openE, tn'.edges.get? e = tn.edges.get? e
  edgeKeys : ∃ f : Nm → Bool, (∀ e ∈ tn.openE, f e = true) ∧ tn'.edges.keys = tn.edges.keys.filter f
  sub_cons : stn.Consistent
  sub_open : stn.openE = opn
  sub_nofix : NoFix stn
  sub_legs : (tn.nodeLegs).Perm (stn.nodeLegs ++ tn.nodeLegs.filter fun p => !(ns.contains p.1))
  sub_keys : stn.nodes.keys = ns
  mem : ∀ e, e ∈ opn ↔ (∃ p ∈ stn.nodeLegs, e ∈ p.2) ∧
    ((∃ p ∈ tn.nodeLegs.filter fun p => !(ns.contains p.1), e ∈ p.2) ∨ e ∈ tn.openE)

theorem mem_nodeLegs {tn : TN τ} (hc : tn.Consistent) {p : Nm × List Nm} :
    p ∈ tn.nodeLegs ↔ ∃ r, tn.nodes.get? p.1 = some r ∧ r.legs = p.2 := by
  unfold TN.nodeLegs
  rw [List.mem_map]
  constructor
  · rintro ⟨q, hq, rfl⟩
    exact ⟨q.2, Dict.get?_of_mem hc.nodes_nodup hq, rfl⟩
  · rintro ⟨r, hr, hl⟩
    exact ⟨(p.1, r), Dict.mem_of_get? hr, by rw [hl]⟩

theorem encapsulate_loose [NetTensor τ] {tn : TN τ} {D : Nm → Nat} {ns opn : List Nm} {z ident : Nm} (hc : tn.Consistent)
    (hl : tn.Loose D) (hx : NoFix tn) (hns : ns.Nodup) (hin : ∀ n ∈ ns, n ∈ tn.nodes.keys)
    (hz : z ∉ tn.nodes.keys.filter fun m => !(ns.contains m)) (hopn : ∀ e, e ∈ opn ↔ e ∈ tn.boundaryOfNodes ns) :
    ∃ tn' stn, tn.subtn ns opn = .ok stn ∧ tn.encapsulate ns opn (some z) ident = (tn', .ok z) ∧
      Encapsulated D tn tn' stn ns opn z := by
  obtain ⟨e1, e2, e3, e4⟩ := TN.emptyOpen_spec (τ := τ) opn
  let S : List Nm := tn.nodes.flatMap fun p => p.2.legs
  have hS : ∀ n r, tn.nodes.get? n = some r → ∀ e ∈ r.legs, e ∈ S := fun n r hr e he =>
    List.mem_flatMap.2 ⟨(n, r), Dict.mem_of_get? hr, he⟩
  have hempty : (TN.emptyOpen opn : TN τ).Fits D S := fun e _ er her => Or.inl (TN.emptyOpen_dim her)
  obtain ⟨s0, h1, h2⟩ := subtnLoop_loose hl hS ns (TN.emptyOpen opn) hns hin (by rw [e1]; simp [Dict.keys]) hempty
  have hsub : tn.subtn ns opn = .ok (TN.copyEdgeAttrs tn s0 (tn.closedOfNodes ns)) := by
    unfold TN.subtn
    rw [if_pos (List.all_eq_true.2 fun n hn => Dict.has_iff.2 (hin n hn))]
    dsimp only
    rw [if_pos (by
      rw [Bool.and_eq_true, List.all_eq_true, List.all_eq_true]
      exact ⟨fun e he => List.contains_iff_mem.2 ((hopn e).1 he), fun e he => List.contains_iff_mem.2 ((hopn e).2 he)⟩), h1]
  generalize hstn : TN.copyEdgeAttrs tn s0 (tn.closedOfNodes ns) = stn at hsub
  clear h1 h2 hempty e1 e2 e3 e4 hstn s0
  have hsc := TN.Consistent.subtn hsub
  obtain ⟨_, _, f, E1, hf, hsn, hopE, hsadj, hE1, hskeys, hEs, hdim⟩ := TN.subtn_ok hsub
  -- the records copied
  have hrec : ∀ m ∈ ns, ∃ r, tn.nodes.get? m = some r ∧ (f m).legs = r.legs ∧ (f m).ten = r.ten := by
    intro m hm
    obtain ⟨r, hr1, _, hr2⟩ := hf m hm
    exact ⟨r, hr1, by rw [hr2], by rw [hr2]⟩
  have hE1dim : ∀ m ∈ ns, ∀ e ∈ (f m).legs, ∃ r, E1.get? e = some r ∧ r.dim = some (D e) := by
    intro m hm e he
    obtain ⟨r, hr1, hr2, hr3⟩ := hrec m hm
    obtain ⟨t, ex, ht, hsh⟩ := hl.nodes m r hr1
    obtain ⟨i, hi, hie⟩ := List.getElem_of_mem he
    obtain ⟨_, k2⟩ := hdim m hm t _ (by rw [hr3]; exact ht) hsh
    refine k2 i e (D e) (List.getElem?_eq_some_iff.2 ⟨hi, hie⟩) ?_
    have hi' : i < r.legs.length := by rw [← hr2]; exact hi
    rw [List.getElem?_map, List.getElem?_append_left (by simpa using hi'), List.getElem?_map,
      List.getElem?_eq_getElem hi']
    simp only [hr2] at hie
    rw [hie]
    rfl
  have hmem : ∀ e, e ∈ opn ↔ (∃ p ∈ stn.nodeLegs, e ∈ p.2) ∧
      ((∃ p ∈ tn.nodeLegs.filter fun p => !(ns.contains p.1), e ∈ p.2) ∨ e ∈ tn.openE) := by
    have ha : ∀ e, (∃ p ∈ stn.nodeLegs, e ∈ p.2) ↔ ∃ n ∈ ns, (n, e) ∈ tn.adj := by
      intro e
      unfold TN.nodeLegs
      rw [hsn, List.map_map]
      constructor
      · rintro ⟨p, hp, he⟩
        obtain ⟨n, hn, rfl⟩ := List.mem_map.1 hp
        obtain ⟨r, hr1, hr2, _⟩ := hrec n hn
        exact ⟨n, hn, (hc.adj_iff n e).2 ⟨r, hr1, by rw [← hr2]; exact he⟩⟩
      · rintro ⟨n, hn, hadj⟩
        obtain ⟨r, hr1, hr2, _⟩ := hrec n hn
        obtain ⟨r', hr', he⟩ := (hc.adj_iff n e).1 hadj
        rw [hr1] at hr'
        cases hr'
        exact ⟨_, List.mem_map.2 ⟨n, hn, rfl⟩, by dsimp only [Function.comp]; rw [hr2]; exact he⟩
    have hb : ∀ e, (∃ p ∈ tn.nodeLegs.filter fun p => !(ns.contains p.1), e ∈ p.2) ↔ ∃ n, n ∉ ns ∧ (n, e) ∈ tn.adj := by
      intro e
      constructor
      · rintro ⟨p, hp, he⟩
        obtain ⟨hp1, hp2⟩ := List.mem_filter.1 hp
        obtain ⟨r, hr, hl⟩ := (mem_nodeLegs hc).1 hp1
        exact ⟨p.1, by simpa using hp2, (hc.adj_iff _ e).2 ⟨r, hr, by rw [hl]; exact he⟩⟩
      · rintro ⟨n, hn, hadj⟩
        obtain ⟨r, hr, he⟩ := (hc.adj_iff n e).1 hadj
        exact ⟨(n, r.legs), List.mem_filter.2 ⟨(mem_nodeLegs hc).2 ⟨r, hr, rfl⟩, by simpa using hn⟩, he⟩
    intro e
    rw [ha, hb, hopn, TN.mem_boundaryOfNodes]
    constructor
    · rintro ⟨k1, k2, k3, _⟩
      refine ⟨k2, ?_⟩
      by_contra hcon
      rw [not_or] at hcon
      refine k3 (TN.mem_closedOfNodes.2 ⟨k1, k2, fun n hn => ?_, hcon.2⟩)
      by_contra hne
      exact hcon.1 ⟨n, hne, hn⟩
    · rintro ⟨k1, k2⟩
      obtain ⟨n, hn, hadj⟩ := k1
      obtain ⟨r, hr, he⟩ := (hc.adj_iff n e).1 hadj
      have hek := hc.legs_exist n r hr e he
      refine ⟨hek, ⟨n, hn, hadj⟩, fun hcl => ?_, ?_⟩
      · obtain ⟨_, _, c3, c4⟩ := TN.mem_closedOfNodes.1 hcl
        rcases k2 with ⟨m, hm, hmadj⟩ | ho
        · exact hm (c3 m hmadj)
        · exact c4 ho
      · obtain ⟨er, her⟩ := Dict.exists_get? hek
        rw [her]
        exact hx e er her
  have hbd : ∀ e ∈ opn, (stn.edges.get? e).map EdgeRec.dim = some (some (D e)) := by
    intro e he
    obtain ⟨k1, ⟨m, hm, hadj⟩, k3, k4⟩ := TN.mem_boundaryOfNodes.1 ((hopn e).1 he)
    obtain ⟨r, hrm, hel⟩ := (hc.adj_iff m e).1 hadj
    obtain ⟨r0, hr0, hr2, _⟩ := hrec m hm
    rw [hrm] at hr0
    cases hr0
    obtain ⟨r2, hr2', hd2⟩ := hE1dim m hm e (by rw [hr2]; exact hel)
    rw [hEs, hr2', Option.map_some, if_neg k3, Option.map_some, hd2]
  have hshape : stn.shape? = some ((opn.map D).map some) := by
    unfold TN.shape?
    rw [hopE]
    have key : ∀ l : List Nm, (∀ e ∈ l, (stn.edges.get? e).map EdgeRec.dim = some (some (D e))) →
        (l.mapM fun e => (stn.edges.get? e).map EdgeRec.dim) = some ((l.map D).map some) := by
      intro l
      induction l with
      | nil => exact fun _ => rfl
      | cons e l ih =>
        intro h
        rw [List.mapM_cons, h e List.mem_cons_self, ih fun x hx => h x (List.mem_cons_of_mem _ hx)]
        rfl
    exact key opn hbd
  have hDs : ∀ e ∈ opn, ∃ m r, m ∈ ns ∧ tn.nodes.get? m = some r ∧ e ∈ r.legs := by
    intro e he
    obtain ⟨k1, ⟨m, hm, hadj⟩, k3, k4⟩ := TN.mem_boundaryOfNodes.1 ((hopn e).1 he)
    obtain ⟨r, hrm, hel⟩ := (hc.adj_iff m e).1 hadj
    exact ⟨m, r, hm, hrm, hel⟩
  obtain ⟨tn', hadd⟩ : ∃ tn', tn.encapsulate ns opn (some z) ident = (tn', .ok z) := by
    unfold TN.encapsulate
    rw [hsub]
    dsimp only
    rw [hopE]
    refine TN.addNode_total (D := D) ?_ (by rw [NetTensor.shape_ofNet]; exact hshape) ?_
    · show z ∉ Dict.keys (tn.nodes.filterKeys fun m => !(ns.contains m))
      rw [Dict.keys_filterKeys]
      exact hz
    · intro e he er her
      change Dict.get? (tn.edges.filterKeys fun e => !((tn.closedOfNodes ns).contains e)) e = some er at her
      rw [Dict.get?_filterKeys] at her
      split at her
      · obtain ⟨m, r, _, hr, hel⟩ := hDs e he
        obtain ⟨er', her', hd⟩ := hl.legs m r hr e hel
        rw [her] at her'
        cases her'
        exact Or.inr hd
      · simp at her
  have hc' : tn'.Consistent := hc.encapsulate (by simp) hadd
  refine ⟨tn', stn, hsub, hadd, ?_⟩
  have hnew := hadd
  unfold TN.encapsulate at hnew
  rw [hsub] at hnew
  dsimp only at hnew
  obtain ⟨_, _, legs, frozen, E', hlg, htn', hE', hdE⟩ := TN.addNode_ok hnew
  simp only [TN.newLegs, Option.some.injEq, Prod.mk.injEq] at hlg
  obtain ⟨rfl, rfl⟩ := hlg
  rw [hopE] at hE' htn' hdE
  clear hnew
  have hzn : z ∉ Dict.keys (tn.nodes.filterKeys fun m => !(ns.contains m)) := by rw [Dict.keys_filterKeys]; exact hz
  have hnodes' : tn'.nodes = (tn.nodes.filterKeys fun m => !(ns.contains m)) ++
      [(z, { legs := opn, ten := some (NetTensor.ofNet stn), frozen := false })] := by
    rw [htn']
    show Dict.set (tn.nodes.filterKeys fun m => !(ns.contains m)) z _ = _
    rw [Dict.set_eq_append hzn]
  have hedges' : tn'.edges = E' := by rw [htn']
  have hopen' : tn'.openE = tn.openE := by
    rw [htn']
    show tn.openE ++ _ = _
    simp
  have hrecs : ∀ m r, tn'.nodes.get? m = some r → (m = z ∧ r.legs = opn ∧ r.ten = some (NetTensor.ofNet stn)) ∨
      (m ∉ ns ∧ tn.nodes.get? m = some r) := by
    intro m r hm
    have hmem := Dict.mem_of_get? hm
    rw [hnodes', List.mem_append, List.mem_singleton] at hmem
    rcases hmem with h | h
    · right
      have := List.mem_filter.1 h
      exact ⟨by simpa using this.2, Dict.get?_of_mem hc.nodes_nodup this.1⟩
    · left
      simp only [Prod.mk.injEq] at h
      obtain ⟨rfl, rfl⟩ := h
      exact ⟨rfl, rfl, rfl⟩
  have hedge : ∀ e r, tn.edges.get? e = some r → e ∉ tn.closedOfNodes ns →
      ∃ r', tn'.edges.get? e = some r' ∧ r'.fix = r.fix ∧ (∀ d, r.dim = some d → r'.dim = some d) := by
    intro e r her hecl
    rw [hedges']
    refine hE'.grow.ent e r ?_
    show Dict.get? (tn.edges.filterKeys fun e => !((tn.closedOfNodes ns).contains e)) e = _
    rw [Dict.get?_filterKeys, if_pos (by simpa using hecl)]
    exact her
  have hevenD : ∀ d, tn.Even d → ∀ e ∈ opn, D e = d := by
    intro d hd e he
    obtain ⟨m, r, _, hr, hel⟩ := hDs e he
    obtain ⟨t, ex, ht, hsh⟩ := hl.nodes m r hr
    have := hd m r t _ hr ht hsh (some (D e)) (by
      simp only [List.map_append, List.mem_append, List.mem_map]
      exact Or.inl ⟨D e, ⟨e, hel, rfl⟩, rfl⟩)
    simpa using this
  refine ⟨hc', ⟨?_, ?_, ?_⟩, ?_, ?_, hopen', ?_, ?_, ?_, hsc, hopE, ?_, ?_, ?_, hmem⟩
  · intro m r hm
    rcases hrecs m r hm with ⟨rfl, h1, h2⟩ | ⟨_, h2⟩
    · exact ⟨_, [], h2, by rw [NetTensor.shape_ofNet, hshape, h1, List.append_nil]⟩
    · exact hl.nodes m r h2
  · intro m r hm e he
    rcases hrecs m r hm with ⟨rfl, h1, h2⟩ | ⟨hmn, h2⟩
    · rw [h1] at he
      obtain ⟨i, hi, hie⟩ := List.getElem_of_mem he
      obtain ⟨_, k2⟩ := hdE _ (by rw [NetTensor.shape_ofNet, hshape])
      rw [hedges']
      refine k2 i e (D e) (List.getElem?_eq_some_iff.2 ⟨hi, hie⟩) ?_
      rw [List.getElem?_map, List.getElem?_map, List.getElem?_eq_getElem hi, hie]
      rfl
    · obtain ⟨er, her, hd⟩ := hl.legs m r h2 e he
      have hadj := (hc.adj_iff m e).2 ⟨r, h2, he⟩
      obtain ⟨r', hr', _, hd'⟩ := hedge e er her (fun hcl => hmn ((TN.mem_closedOfNodes.1 hcl).2.2.1 m hadj))
      exact ⟨r', hr', hd' _ hd⟩
  · intro e he
    rw [hopen'] at he
    obtain ⟨er, her, hd⟩ := hl.opens e he
    obtain ⟨r', hr', _, hd'⟩ := hedge e er her (fun hcl => (TN.mem_closedOfNodes.1 hcl).2.2.2 he)
    exact ⟨r', hr', hd' _ hd⟩
  · intro e r her
    rw [hedges'] at her
    by_cases hk : e ∈ Dict.keys (tn.dropSub ns (tn.closedOfNodes ns)).edges
    · obtain ⟨r1, hr1⟩ := Dict.exists_get? hk
      obtain ⟨r2, hr2, hfix, _⟩ := hE'.grow.ent e r1 hr1
      rw [her] at hr2
      cases hr2
      rw [hfix]
      change Dict.get? (tn.edges.filterKeys fun e => !((tn.closedOfNodes ns).contains e)) e = some r1 at hr1
      rw [Dict.get?_filterKeys] at hr1
      split at hr1
      · exact hx e r1 hr1
      · simp at hr1
    · exact hE'.nofix e r hk her
  · intro d hd m r t sh hm ht hsh x hxs
    rcases hrecs m r hm with ⟨rfl, h1, h2⟩ | ⟨_, h2⟩
    · rw [h2, Option.some.injEq] at ht
      subst ht
      rw [NetTensor.shape_ofNet, hshape, Option.some.injEq] at hsh
      subst hsh
      simp only [List.map_map, List.mem_map, Function.comp] at hxs
      obtain ⟨e, he, rfl⟩ := hxs
      rw [hevenD d hd e he]
    · exact hd m r t sh h2 ht hsh x hxs
  · unfold TN.nodeLegs
    rw [hnodes', List.map_append, List.map_singleton]
    congr 1
    unfold Dict.filterKeys
    rw [List.filter_map]
    rfl
  · intro e he
    obtain ⟨er, her, hd⟩ := hl.opens e he
    obtain ⟨r', hr', hfx, hd'⟩ := hedge e er her (fun hcl => (TN.mem_closedOfNodes.1 hcl).2.2.2 he)
    rw [hr', her]
    obtain ⟨dm, fx⟩ := er
    obtain ⟨dm', fx'⟩ := r'
    dsimp only at hd hfx hd'
    rw [hfx, hd' _ hd, hd]
  · refine ⟨fun e => !((tn.closedOfNodes ns).contains e), fun e he => ?_, ?_⟩
    · simp only [Bool.not_eq_true', List.contains_eq_mem, decide_eq_false_iff_not]
      exact fun hcl => (TN.mem_closedOfNodes.1 hcl).2.2.2 he
    · rw [hedges', ← Dict.keys_filterKeys]
      obtain ⟨t, ht⟩ := hE'.grow.pre
      have hnd := hc'.edges_nodup
      rw [hedges', ← ht] at hnd
      cases t with
      | nil => rw [← ht, List.append_nil]; rfl
      | cons x t =>
        exfalso
        have hx' : x ∈ E'.keys := by rw [← ht]; simp
        refine (List.disjoint_of_nodup_append hnd) ?_ List.mem_cons_self
        rcases (hE'.keys x).1 hx' with h | h
        · exact h
        · show x ∈ Dict.keys (tn.edges.filterKeys fun e => !((tn.closedOfNodes ns).contains e))
          rw [Dict.keys_filterKeys, List.mem_filter]
          obtain ⟨k1, _, k3, _⟩ := TN.mem_boundaryOfNodes.1 ((hopn x).1 h)
          exact ⟨k1, by simpa using k3⟩
  · intro e r her
    rw [hEs] at her
    obtain ⟨r1, hr1, heq⟩ := Option.map_eq_some_iff.1 her
    have h1 : r1.fix = none := hE1.nofix e r1 (by simp [Dict.keys]) hr1
    rw [← heq]
    split
    · cases hg : tn.edges.get? e with
      | none => exact h1
      | some r2 => exact hx e r2 hg
    · exact h1
  · have hperm := TN.split_nodes hc.nodes_nodup hns (f := fun m => (tn.nodes.get? m).getD (f m)) (fun m hm => by
      obtain ⟨r, hr1, _⟩ := hrec m hm
      rw [hr1]
      rfl)
    have := hperm.map fun p : Nm × NodeRec τ => (p.1, p.2.legs)
    rw [List.map_append] at this
    have e1 : (ns.map fun m => (m, (tn.nodes.get? m).getD (f m))).map (fun p : Nm × NodeRec τ => (p.1, p.2.legs)) =
        stn.nodeLegs := by
      unfold TN.nodeLegs
      rw [hsn, List.map_map, List.map_map]
      refine List.map_congr_left fun m hm => ?_
      obtain ⟨r, hr1, hr2, _⟩ := hrec m hm
      simp only [Function.comp, hr1, Option.getD_some, hr2]
    have e2 : (tn.nodes.filterKeys fun n => !(ns.contains n)).map (fun p : Nm × NodeRec τ => (p.1, p.2.legs)) =
        tn.nodeLegs.filter fun p => !(ns.contains p.1) := by
      unfold TN.nodeLegs Dict.filterKeys
      rw [List.filter_map]
      rfl
    rw [e1, e2] at this
    exact this
  · rw [hsn]
    unfold Dict.keys
    rw [List.map_map]
    exact List.map_id _

end Verif
