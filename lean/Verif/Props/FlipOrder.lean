import Verif.Props.Flip
import Verif.Lemmas.StemOrder
import Verif.Props.Slicer
/-!
# C72: the tree read off an order has exact indices, so flipping it keeps the value
-/

namespace Verif

theorem flatMap_single {α β : Type} {l : List α} {f : α → List β} {g : α → β} (h : ∀ a ∈ l, f a = [g a]) : l.flatMap f = l.map g := by
  induction l with
  | nil => rfl
  | cons a l ih => rw [List.flatMap_cons, List.map_cons, h a (by simp), ih fun b hb => h b (by simp [hb])]; rfl

/-- The indices outside of the tree of `n`: the open ones and those of the other trees. -/
def outside (opn ns : List Nm) (d : Dict Nm PTree) (n e : Nm) : Prop := e ∈ opn ∨ ∃ m ∈ ns, m ≠ n ∧ e ∈ (ptreeOf d m).inds

/-- contraction_tree.py:23-34: the trees while reading an order have exact indices. -/
structure EForest {τ : Type} (tn : TN τ) (opn ns : List Nm) (d : Dict Nm PTree) : Prop where
  tree : ∀ n ∈ ns, ∃ t, d.get? n = some t
  exact : ∀ n ∈ ns, (ptreeOf d n).Exact (outside opn ns d n)
  legs : ∀ p ∈ tn.nodeLegs, (ptreeOf d p.1).subs = p.2

theorem ptreeOf_set (d : Dict Nm PTree) (z : Nm) (t : PTree) (w : Nm) : ptreeOf (d.set z t) w = if z = w then t else ptreeOf d w := by
  unfold ptreeOf
  rw [Dict.get?_set]
  split <;> rfl

section
variable {τ : Type} [NetTensor τ] {D : Nm → Nat} {perm : List Nm → List Nm}

theorem legsAlong_get (hperm : ∀ l, (perm l).Perm l) {ns live : List Nm} {o : List OrderStep} (hr : Runs ns o live) {tn : TN τ}
    (hk : tn.nodes.keys.Perm ns) (hc : tn.Consistent) (hl : tn.Loose D) (hx : NoFix tn) {d d' : Dict Nm (List Nm)}
    (h : legsAlong perm o tn d = .ok d') {n : Nm} (hn : n ∉ o.map (·.2)) : d'.get? n = d.get? n := by
  induction hr generalizing tn d with
  | nil _ => cases h; rfl
  | cons h1 h2 h3 _ ih =>
    obtain ⟨tn1, stn, _, e2, e3, e4, _⟩ := encStep_ok hperm hc hl hx (hk.trans h1) h3
    rw [legsAlong, e2] at h
    rw [List.map_cons, List.mem_cons, not_or] at hn
    rw [ih e4 e3.cons e3.loose e3.nofix h hn.2, Dict.get?_set, if_neg (Ne.symm hn.1)]

theorem EForest.step {tn tn' stn : TN τ} {ns rest opn : List Nm} {x y z : Nm} {d : Dict Nm PTree}
    (h : EForest tn tn.openE ns d) (hk : tn.nodes.keys.Perm ns) (h1 : ns.Perm ([x, y] ++ rest)) (hz : z ∉ ns)
    (he : Encapsulated D tn tn' stn [x, y] opn z) :
    EForest tn' tn'.openE (z :: rest) (d.set z (PTree.mk false z opn (ptreeOf d x) (ptreeOf d y))) := by
  have hnd : ([x, y] ++ rest).Nodup := by
    have hn := he.cons.nodes_nodup
    have : tn.nodes.keys.Nodup := by
      have h2 := he.sub_legs.map Prod.fst
      rw [nodeLegs_fst, List.map_append, nodeLegs_fst] at h2
      rw [h2.nodup_iff]
      refine List.Nodup.append he.sub_cons.nodes_nodup ?_ ?_
      · rw [he.keys] at hn
        have := hn.of_append_left
        rw [← nodeLegs_fst, List.filter_map] at this
        exact this
      · intro a ha hb
        rw [he.sub_keys] at ha
        obtain ⟨p, hp, rfl⟩ := List.mem_map.1 hb
        have := (List.mem_filter.1 hp).2
        simp only [Bool.not_eq_true', List.contains_eq_mem, decide_eq_false_iff_not] at this
        exact this ha
    exact h1.nodup_iff.1 (hk.nodup_iff.1 this)
  have hxy : x ≠ y ∧ x ∉ rest ∧ y ∉ rest := by
    simp only [List.cons_append, List.nil_append, List.nodup_cons, List.mem_cons, not_or] at hnd
    exact ⟨hnd.1.1, hnd.1.2, hnd.2.1⟩
  have hmem : ∀ m, m ∈ ns ↔ m = x ∨ m = y ∨ m ∈ rest := fun m => by rw [h1.mem_iff]; simp
  have hzr : z ∉ rest := fun hr => hz ((hmem z).2 (by tauto))
  have hT : ∀ w, w ∈ ns → ptreeOf (d.set z (PTree.mk false z opn (ptreeOf d x) (ptreeOf d y))) w = ptreeOf d w := fun w hw => by
    rw [ptreeOf_set, if_neg]; rintro rfl; exact hz hw
  have hTz : ptreeOf (d.set z (PTree.mk false z opn (ptreeOf d x) (ptreeOf d y))) z = PTree.mk false z opn (ptreeOf d x) (ptreeOf d y) := by
    rw [ptreeOf_set, if_pos rfl]
  have hkey : ∀ p ∈ tn.nodeLegs, p.1 ∈ ns := fun p hp => hk.mem_iff.1 (by rw [← nodeLegs_fst]; exact List.mem_map_of_mem hp)
  have hleg : ∀ n ∈ ns, ∃ p ∈ tn.nodeLegs, p.1 = n := fun n hn => by
    have := hk.mem_iff.2 hn
    rw [← nodeLegs_fst] at this
    exact List.mem_map.1 this
  have hfil : ∀ p, p ∈ tn.nodeLegs.filter (fun p => !([x, y].contains p.1)) ↔ p ∈ tn.nodeLegs ∧ p.1 ∈ rest := fun p => by
    rw [List.mem_filter]
    refine and_congr_right fun hp => ?_
    have := (hmem p.1).1 (hkey p hp)
    simp only [Bool.not_eq_true', List.contains_eq_mem, decide_eq_false_iff_not, List.mem_cons, List.not_mem_nil, or_false]
    constructor
    · tauto
    · intro hr hxy'
      rcases hxy' with h | h
      · exact hxy.2.1 (h ▸ hr)
      · exact hxy.2.2 (h ▸ hr)
  have hstn : ∀ p, p ∈ stn.nodeLegs ↔ p ∈ tn.nodeLegs ∧ (p.1 = x ∨ p.1 = y) := fun p => by
    constructor
    · intro hp
      refine ⟨he.sub_legs.mem_iff.2 (List.mem_append_left _ hp), ?_⟩
      have : p.1 ∈ stn.nodes.keys := by rw [← nodeLegs_fst]; exact List.mem_map_of_mem hp
      rw [he.sub_keys] at this
      simpa using this
    · rintro ⟨hp, hx⟩
      rcases List.mem_append.1 (he.sub_legs.mem_iff.1 hp) with h | h
      · exact h
      · have := ((hfil p).1 h).2
        rcases hx with h | h
        · exact (hxy.2.1 (h ▸ this)).elim
        · exact (hxy.2.2 (h ▸ this)).elim
  -- what is outside of the new tree
  have hout : ∀ e, outside tn'.openE (z :: rest) (d.set z (PTree.mk false z opn (ptreeOf d x) (ptreeOf d y))) z e ↔
      e ∈ tn.openE ∨ ∃ m ∈ rest, e ∈ (ptreeOf d m).inds := fun e => by
    unfold outside
    rw [he.openE]
    refine or_congr_right ⟨?_, ?_⟩
    · rintro ⟨m, hm, hne, hi⟩
      rcases List.mem_cons.1 hm with rfl | hm
      · exact (hne rfl).elim
      · rw [hT m ((hmem m).2 (by tauto))] at hi
        exact ⟨m, hm, hi⟩
    · rintro ⟨m, hm, hi⟩
      exact ⟨m, List.mem_cons_of_mem _ hm, fun h => hzr (h ▸ hm), by rw [hT m ((hmem m).2 (by tauto))]; exact hi⟩
  have hex : ∀ n, n ∈ ns → ∀ e, e ∈ (ptreeOf d n).subs → e ∈ (ptreeOf d n).inds := fun n hn e => (h.exact n hn).sub
  have hxn : x ∈ ns := (hmem x).2 (by tauto)
  have hyn : y ∈ ns := (hmem y).2 (by tauto)
  have hrn : ∀ m ∈ rest, m ∈ ns := fun m hm => (hmem m).2 (by tauto)
  have hopn : ∀ e, e ∈ opn ↔ (e ∈ (ptreeOf d x).inds ∨ e ∈ (ptreeOf d y).inds) ∧ (e ∈ tn.openE ∨ ∃ m ∈ rest, e ∈ (ptreeOf d m).inds) := fun e => by
    rw [he.mem]
    constructor
    · rintro ⟨⟨p, hp, hpe⟩, hq⟩
      obtain ⟨hp1, hp2⟩ := (hstn p).1 hp
      rw [← h.legs p hp1] at hpe
      have hi := hex _ (hkey p hp1) e hpe
      refine ⟨?_, ?_⟩
      · rcases hp2 with h | h
        · rw [h] at hi; exact Or.inl hi
        · rw [h] at hi; exact Or.inr hi
      · rcases hq with ⟨q, hq, hqe⟩ | hq
        · obtain ⟨hq1, hq2⟩ := (hfil q).1 hq
          rw [← h.legs q hq1] at hqe
          exact Or.inr ⟨q.1, hq2, hex _ (hkey q hq1) e hqe⟩
        · exact Or.inl hq
    · have key : ∀ w, w = x ∨ w = y → e ∈ (ptreeOf d w).inds → (e ∈ tn.openE ∨ ∃ m ∈ rest, e ∈ (ptreeOf d m).inds) →
          (∃ p ∈ stn.nodeLegs, e ∈ p.2) ∧ ((∃ p ∈ tn.nodeLegs.filter fun p => !([x, y].contains p.1), e ∈ p.2) ∨ e ∈ tn.openE) := by
        intro w hw hi ho
        have hwn : w ∈ ns := by rcases hw with rfl | rfl <;> assumption
        have hwr : ∀ m ∈ rest, m ≠ w := by
          rintro m hm rfl
          rcases hw with rfl | rfl
          · exact hxy.2.1 hm
          · exact hxy.2.2 hm
        constructor
        · obtain ⟨p, hp, rfl⟩ := hleg w hwn
          refine ⟨p, (hstn p).2 ⟨hp, hw⟩, ?_⟩
          rw [← h.legs p hp]
          refine (h.exact _ hwn).keep hi ?_
          rcases ho with ho | ⟨m, hm, hmi⟩
          · exact Or.inl ho
          · exact Or.inr ⟨m, hrn m hm, hwr m hm, hmi⟩
        · rcases ho with ho | ⟨m, hm, hmi⟩
          · exact Or.inr ho
          · obtain ⟨q, hq, rfl⟩ := hleg m (hrn m hm)
            refine Or.inl ⟨q, (hfil q).2 ⟨hq, hm⟩, ?_⟩
            rw [← h.legs q hq]
            exact (h.exact _ (hrn _ hm)).keep hmi (Or.inr ⟨w, hwn, (hwr _ hm).symm, hi⟩)
      rintro ⟨hi | hi, ho⟩
      · exact key x (Or.inl rfl) hi ho
      · exact key y (Or.inr rfl) hi ho
  refine ⟨fun w hw => ?_, fun w hw' => ?_, fun p hp => ?_⟩
  · rcases List.mem_cons.1 hw with rfl | hw
    · exact ⟨_, by rw [Dict.get?_set, if_pos rfl]⟩
    · obtain ⟨t, ht⟩ := h.tree w (hrn w hw)
      exact ⟨t, by rw [Dict.get?_set, if_neg (by rintro rfl; exact hzr hw), ht]⟩
  · rcases List.mem_cons.1 hw' with rfl | hw
    · rw [hTz, PTree.mk_exact]
      refine ⟨fun e => by rw [hout, hopn], (h.exact x hxn).congr fun e _ => ?_, (h.exact y hyn).congr fun e _ => ?_⟩
      · rw [hout, or_assoc]
        refine or_congr_right ⟨?_, ?_⟩
        · rintro ⟨m, hm, hne, hi⟩
          rcases (hmem m).1 hm with rfl | rfl | hm
          · exact (hne rfl).elim
          · exact Or.inr hi
          · exact Or.inl ⟨m, hm, hi⟩
        · rintro (⟨m, hm, hi⟩ | hi)
          · exact ⟨m, hrn m hm, fun h => hxy.2.1 (h ▸ hm), hi⟩
          · exact ⟨y, hyn, hxy.1.symm, hi⟩
      · rw [hout, or_assoc]
        refine or_congr_right ⟨?_, ?_⟩
        · rintro ⟨m, hm, hne, hi⟩
          rcases (hmem m).1 hm with rfl | rfl | hm
          · exact Or.inr hi
          · exact (hne rfl).elim
          · exact Or.inl ⟨m, hm, hi⟩
        · rintro (⟨m, hm, hi⟩ | hi)
          · exact ⟨m, hrn m hm, fun h => hxy.2.2 (h ▸ hm), hi⟩
          · exact ⟨x, hxn, hxy.1, hi⟩
    · clear hw'
      rw [hT w (hrn w hw)]
      refine (h.exact w (hrn w hw)).congr fun e _ => ?_
      unfold outside
      rw [he.openE]
      refine or_congr_right ⟨?_, ?_⟩
      · rintro ⟨m, hm, hne, hi⟩
        rcases (hmem m).1 hm with rfl | rfl | hm
        · exact ⟨z, List.mem_cons_self, fun h => hzr (h ▸ hw), by rw [hTz, PTree.mk_inds]; exact Or.inl hi⟩
        · exact ⟨z, List.mem_cons_self, fun h => hzr (h ▸ hw), by rw [hTz, PTree.mk_inds]; exact Or.inr hi⟩
        · exact ⟨m, List.mem_cons_of_mem _ hm, hne, by rw [hT m (hrn m hm)]; exact hi⟩
      · rintro ⟨m, hm, hne, hi⟩
        rcases List.mem_cons.1 hm with rfl | hm
        · rw [hTz, PTree.mk_inds] at hi
          rcases hi with hi | hi
          · exact ⟨x, hxn, fun h => hxy.2.1 (h ▸ hw), hi⟩
          · exact ⟨y, hyn, fun h => hxy.2.2 (h ▸ hw), hi⟩
        · rw [hT m (hrn m hm)] at hi
          exact ⟨m, hrn m hm, hne, hi⟩
  · rw [he.nodeLegs] at hp
    rcases List.mem_append.1 hp with hp | hp
    · have hp' := (hfil p).1 hp
      rw [hT p.1 (hkey p hp'.1), h.legs p hp'.1]
    · rw [List.mem_singleton] at hp
      subst hp
      rw [hTz, PTree.mk_subs]

theorem EForest.all (hperm : ∀ l, (perm l).Perm l) {last : Nm} {order : List OrderStep} : ∀ {tn : TN τ} {live : List Nm} {d td : Dict Nm PTree}
    {dl0 dl : Dict Nm (List Nm)}, EForest tn tn.openE live d → tn.nodes.keys.Perm live → tn.Consistent → tn.Loose D → NoFix tn →
    ValidOrder live order last → Pairwise2 order → SingleAssignment live order → legsAlong perm order tn dl0 = .ok dl →
    order.foldlM (ptreeStep (legsOf dl)) d = some td → ∃ t, td.get? last = some t ∧ t.Exact (· ∈ tn.openE) := by
  induction order with
  | nil =>
    intro tn live d td dl0 dl h _ _ _ _ hv _ _ _ hf
    cases hv
    cases hf
    obtain ⟨t, ht⟩ := h.tree last (by simp)
    refine ⟨t, ht, ?_⟩
    have := h.exact last (by simp)
    unfold ptreeOf at this
    rw [ht] at this
    refine PTree.Exact.congr this fun e _ => ?_
    unfold outside
    constructor
    · rintro (h | ⟨m, hm, hne, _⟩)
      · exact h
      · exact (hne (by simpa using hm)).elim
    · exact Or.inl
  | cons s order ih =>
    intro tn live d td dl0 dl h hk hc hl hx hv hb hs hleg hf
    cases hv with
    | @step _ xs rest z _ _ h1 h2 h3 h4 =>
      obtain ⟨x, y, rfl⟩ := List.length_eq_two.1 (hb (xs, z) List.mem_cons_self)
      obtain ⟨tn1, stn, _, e2, e3, e4, _⟩ := encStep_ok hperm hc hl hx (hk.trans h1) h3
      have hz : z ∉ live := fun hz => (List.disjoint_of_nodup_append hs) hz (by simp)
      have hs1 : SingleAssignment (z :: rest) order := by
        unfold SingleAssignment at hs ⊢
        have hp : (live ++ ((([x, y], z) :: order).map (·.2))).Perm ([x, y] ++ ((z :: rest) ++ order.map (·.2))) := by
          rw [List.map_cons]
          refine (List.Perm.append_right _ h1).trans ?_
          rw [List.append_assoc]
          exact List.Perm.append_left _ List.perm_middle
        exact (hp.nodup_iff.1 hs).of_append_right
      rw [legsAlong, e2] at hleg
      dsimp only at hleg
      have hzo : z ∉ order.map (·.2) := by
        unfold SingleAssignment at hs1
        rw [List.cons_append, List.nodup_cons] at hs1
        exact fun hm => hs1.1 (List.mem_append_right _ hm)
      have hg := legsAlong_get hperm (validOrder_iff.1 h4) e4 e3.cons e3.loose e3.nofix hleg hzo
      rw [Dict.get?_set, if_pos rfl] at hg
      have hzl : legsOf dl z = perm (tn.boundaryOfNodes [x, y]) := by
        obtain ⟨r, hr, hrl⟩ := (mem_nodeLegs e3.cons (p := (z, perm (tn.boundaryOfNodes [x, y])))).1 (by rw [e3.nodeLegs]; simp)
        unfold legsOf
        rw [hg, hr]
        exact hrl
      have htx : d.get? x = some (ptreeOf d x) := by
        obtain ⟨t, ht⟩ := h.tree x (h1.mem_iff.2 (by simp))
        unfold ptreeOf
        rw [ht]; rfl
      have hty : d.get? y = some (ptreeOf d y) := by
        obtain ⟨t, ht⟩ := h.tree y (h1.mem_iff.2 (by simp))
        unfold ptreeOf
        rw [ht]; rfl
      rw [List.foldlM_cons] at hf
      have hst : ptreeStep (legsOf dl) d ([x, y], z) =
          some (d.set z (PTree.mk false z (perm (tn.boundaryOfNodes [x, y])) (ptreeOf d x) (ptreeOf d y))) := by
        simp [ptreeStep, htx, hty, hzl]
      rw [hst] at hf
      have := ih (h.step hk h1 hz e3) e4 e3.cons e3.loose e3.nofix h4 (fun s hs => hb s (List.mem_cons_of_mem _ hs)) hs1 hleg hf
      rw [e3.openE] at this
      exact this

omit [NetTensor τ] in
theorem eforest_init {tn : TN τ} (hc : tn.Consistent) : EForest tn tn.openE tn.nodes.keys (tn.nodes.map fun p => (p.1, PTree.leaf p.1 p.2.legs)) := by
  have hg : ∀ p ∈ tn.nodes, Dict.get? (tn.nodes.map fun p => (p.1, PTree.leaf p.1 p.2.legs)) p.1 = some (.leaf p.1 p.2.legs) := by
    intro p hp
    refine Dict.get?_of_mem ?_ (List.mem_map.2 ⟨p, hp, rfl⟩)
    have : Dict.keys (tn.nodes.map fun p => (p.1, PTree.leaf p.1 p.2.legs)) = tn.nodes.keys := by
      unfold Dict.keys
      rw [List.map_map]; rfl
    rw [this]
    exact hc.nodes_nodup
  have hn : ∀ n ∈ tn.nodes.keys, ∃ p ∈ tn.nodes, p.1 = n := fun n hn => List.mem_map.1 hn
  refine ⟨fun n h => ?_, fun n h => ?_, fun p hp => ?_⟩
  · obtain ⟨p, hp, rfl⟩ := hn n h
    exact ⟨_, hg p hp⟩
  · obtain ⟨p, hp, rfl⟩ := hn n h
    unfold ptreeOf
    rw [hg p hp]
    trivial
  · obtain ⟨q, hq, rfl⟩ := List.mem_map.1 hp
    unfold ptreeOf
    rw [hg q hq]
    rfl

/-- **C72.** The tree that `from_order` reads off a valid pairwise order has exact indices, the open edges being those outside. -/
theorem c72_from_order (hperm : ∀ l, (perm l).Perm l) {tn : TN τ} {order : List OrderStep} (hc : tn.Consistent) (hl : tn.Loose D) (hx : NoFix tn)
    (hv : ValidOrder tn.nodes.keys order (.str "#")) (h2 : Pairwise2 order) (hs : SingleAssignment tn.nodes.keys order) {t : PTree}
    (h : fromOrder perm tn order = some t) : t.Exact (· ∈ tn.openE) := by
  unfold fromOrder at h
  split at h
  · simp at h
  rename_i d hd
  split at h
  · simp at h
  rename_i td htd
  obtain ⟨t', h1, h3⟩ := (eforest_init hc).all hperm (.refl _) hc hl hx hv h2 hs hd htd
  rw [h1, Option.some.injEq] at h
  exact h ▸ h3

omit [NetTensor τ] in
/-- The tensors of the trees stay the same while reading an order. -/
theorem facts_all {R : Type} (tens : Nm → List Nat → R) {subs : Nm → List Nm} {last : Nm} {order : List OrderStep} :
    ∀ {live : List Nm} {d td : Dict Nm PTree}, (∀ n ∈ live, ∃ t, d.get? n = some t) → ValidOrder live order last → Pairwise2 order →
      order.foldlM (ptreeStep subs) d = some td →
      ((ptreeOf td last).facts tens).Perm (live.flatMap fun n => (ptreeOf d n).facts tens) := by
  induction order with
  | nil =>
    intro live d td _ hv _ hf
    cases hv
    cases hf
    simp
  | cons s order ih =>
    intro live d td ht hv hb hf
    cases hv with
    | @step _ xs rest z _ _ h1 h2 h3 h4 =>
      obtain ⟨x, y, rfl⟩ := List.length_eq_two.1 (hb (xs, z) List.mem_cons_self)
      obtain ⟨t, hx⟩ := ht x (h1.mem_iff.2 (by simp))
      obtain ⟨u, hy⟩ := ht y (h1.mem_iff.2 (by simp))
      have hst : ptreeStep subs d ([x, y], z) = some (d.set z (PTree.mk false z (subs z) t u)) := by simp [ptreeStep, hx, hy]
      rw [List.foldlM_cons, hst] at hf
      refine (ih (live := z :: rest) (fun n hn => ?_) h4 (fun s hs => hb s (List.mem_cons_of_mem _ hs)) hf).trans ?_
      · rcases List.mem_cons.1 hn with rfl | hn
        · exact ⟨_, by rw [Dict.get?_set, if_pos rfl]⟩
        · obtain ⟨v, hv⟩ := ht n (h1.mem_iff.2 (by simp [hn]))
          exact ⟨v, by rw [Dict.get?_set, if_neg (by rintro rfl; exact h3 hn), hv]⟩
      · refine List.Perm.trans ?_ (h1.symm.flatMap_right _)
        have hr : (rest.flatMap fun n => (ptreeOf (d.set z (PTree.mk false z (subs z) t u)) n).facts tens) =
            rest.flatMap fun n => (ptreeOf d n).facts tens := by
          unfold List.flatMap
          congr 1
          refine List.map_congr_left fun n hn => ?_
          rw [ptreeOf_set, if_neg (by rintro rfl; exact h3 hn)]
        have hx' : ptreeOf d x = t := by unfold ptreeOf; rw [hx]; rfl
        have hy' : ptreeOf d y = u := by unfold ptreeOf; rw [hy]; rfl
        rw [List.flatMap_cons, hr, ptreeOf_set, if_pos rfl]
        simp only [List.cons_append, List.nil_append, List.flatMap_cons, hx', hy', ← List.append_assoc]
        exact (PTree.mk_facts tens _ _ _ _ _).append_right _

/-- **C72.** Flipping branches of the tree of an order: contracting along the result gives, at the open edges it is left with, the sum over
all other edges of the product of the tensors of the network. -/
theorem c72_contract {R : Type} [CommSemiring R] {T : Nat} {perm' : List Nm → List Nm} {gt : List Nm → List Nm → Bool} (hperm : ∀ l, (perm l).Perm l)
    (hperm' : ∀ l, (perm' l).Perm l) {tn : TN τ} {order : List OrderStep} (hc : tn.Consistent) (hl : tn.Loose D) (hx : NoFix tn)
    (hne : order ≠ []) (hv : ValidOrder tn.nodes.keys order (.str "#")) (h2 : Pairwise2 order) (hs : SingleAssignment tn.nodes.keys order) {t : PTree}
    (h : fromOrder perm tn order = some t) (dom : Nm → Finset Nat) (tens : Nm → List Nat → R) :
    ∃ out : List Nm, (∀ e, e ∈ out ↔ e ∈ tn.openE ∧ ∃ p ∈ tn.nodeLegs, e ∈ p.2) ∧ (PTree.flipBranch T perm' gt t.size t).1.subs = out ∧
      ∀ idx, (PTree.flipBranch T perm' gt t.size t).1.run dom tens idx =
        einsum dom (tn.nodeLegs.map fun p => ⟨p.2, tens p.1⟩) out idx := by
  have hex := c72_from_order hperm hc hl hx hv h2 hs h
  have hf : (t.facts tens).Perm (tn.nodeLegs.map fun p => ⟨p.2, tens p.1⟩) := by
    unfold fromOrder at h
    split at h
    · simp at h
    split at h
    · simp at h
    rename_i td htd
    have hi := eforest_init hc
    have := facts_all tens hi.tree hv h2 htd
    have ht : ptreeOf td (.str "#") = t := by unfold ptreeOf; rw [h]; rfl
    rw [ht] at this
    refine this.trans (List.Perm.of_eq ?_)
    unfold TN.nodeLegs Dict.keys
    rw [List.flatMap_map, List.map_map]
    refine flatMap_single fun p hp => ?_
    have hg : Dict.get? (tn.nodes.map fun p => (p.1, PTree.leaf p.1 p.2.legs)) p.1 = some (.leaf p.1 p.2.legs) := by
      refine Dict.get?_of_mem ?_ (List.mem_map.2 ⟨p, hp, rfl⟩)
      have : Dict.keys (tn.nodes.map fun p => (p.1, PTree.leaf p.1 p.2.legs)) = tn.nodes.keys := by
        unfold Dict.keys
        rw [List.map_map]; rfl
      rw [this]
      exact hc.nodes_nodup
    unfold ptreeOf
    rw [hg]
    rfl
  obtain ⟨v1, v2⟩ := PTree.c72_value (T := T) (gt := gt) hperm' hex dom tens
  have hnode : ∃ new n s a b, t = PTree.node new n s a b := by
    have := (fromOrder_spec hv h2 hs h).inn
    cases t with
    | leaf n s =>
      have h0 := congrArg Multiset.card this
      simp only [PTree.inn, Multiset.card_zero, Multiset.coe_card, List.length_map] at h0
      exact (hne (List.length_eq_zero_iff.1 h0.symm)).elim
    | node new n s a b => exact ⟨_, _, _, _, _, rfl⟩
  refine ⟨t.subs, fun e => ?_, v1, fun idx => ?_⟩
  · have hin : e ∈ t.inds ↔ ∃ p ∈ tn.nodeLegs, e ∈ p.2 := by
      rw [PTree.mem_inds tens]
      constructor
      · rintro ⟨f, hf1, hf2⟩
        obtain ⟨p, hp, rfl⟩ := List.mem_map.1 (hf.mem_iff.1 hf1)
        exact ⟨p, hp, hf2⟩
      · rintro ⟨p, hp, he⟩
        exact ⟨_, hf.mem_iff.2 (List.mem_map.2 ⟨p, hp, rfl⟩), he⟩
    obtain ⟨new, n, s, a, b, rfl⟩ := hnode
    rw [← hin, and_comm, PTree.inds, List.mem_append]
    exact hex.1 e
  · obtain ⟨new, n, s, a, b, ht⟩ := hnode
    rw [v2, PTree.run_eq hex _ _ _ _ _ ht, einsum_perm hf]

end

/-- Three tensors, the last two joined by three edges. -/
def flipOps : List (Op Shp) := [sliceTen 0 [0], sliceTen 1 [1, 2, 3], sliceTen 2 [0, 1, 2, 3]]

/-- An order that contracts the first and the last of them first. -/
def flipOrder : List OrderStep := [([.int 0, .int 2], .str "m"), ([.int 1, .str "m"], .str "#")]

/-- `c72_from_order` and `c72_contract` for a network and an order whose tree has a branch to flip. -/
example : ∃ (tn : TN Shp) (t : PTree), TN.run {} flipOps = some tn ∧ tn.Consistent ∧ tn.Loose tn.dimOf ∧ NoFix tn ∧ GoodOrder tn.nodes.keys flipOrder ∧
    fromOrder id tn flipOrder = some t ∧ (PTree.flipBranch 0 id (fun _ _ => false) t.size t).2 = true ∧ t.Exact (· ∈ tn.openE) := by
  have h : (TN.run {} flipOps).map (fun tn => (tn.readyB && goodB tn.nodes.keys flipOrder && tn.edges.all fun p => p.2.fix.isNone) &&
      ((fromOrder id tn flipOrder).any fun t => (PTree.flipBranch 0 id (fun _ _ => false) t.size t).2)) = some true := by decide +kernel
  rw [Option.map_eq_some_iff] at h
  obtain ⟨tn, h0, h1⟩ := h
  simp only [Bool.and_eq_true] at h1
  obtain ⟨⟨⟨k1, k2⟩, k3⟩, k4⟩ := h1
  have hc : tn.Consistent := c11_consistent_partial (ops := flipOps) ⟨trivial, trivial, trivial, trivial⟩ h0
  have hx : NoFix tn := fun e r hr => by simpa using List.all_eq_true.1 k3 _ (Dict.mem_of_get? hr)
  have hg := goodOrder_of_B k2
  rw [Option.any_eq_true] at k4
  obtain ⟨t, ht, hf⟩ := k4
  exact ⟨tn, t, h0, hc, (TN.ready_of_readyB k1).loose, hx, hg, ht, hf,
    c72_from_order (fun l => List.Perm.refl l) hc (TN.ready_of_readyB k1).loose hx hg.valid hg.pairs hg.single ht⟩

end Verif
