import Verif.Lemmas.StemTree
/-!
# Merging branches keeps the names

Used for C60: the graph of branches of `merge_nodes`.
-/

namespace Verif
open PTree

/-- What is known of `networkx.max_weight_matching`: it gives a matching of the graph. -/
structure MatchOK (mt : List ((Int × Int) × Nat) → List (Int × Int)) : Prop where
  edge : ∀ l, ∀ p ∈ mt l, ∃ w, (p, w) ∈ l ∨ ((p.2, p.1), w) ∈ l
  loop : ∀ l, ∀ p ∈ mt l, p.1 ≠ p.2
  disj : ∀ l, (mt l).Pairwise fun p q => p.1 ≠ q.1 ∧ p.1 ≠ q.2 ∧ p.2 ≠ q.1 ∧ p.2 ≠ q.2

/-- A sum over the trees of a table. -/
def dsum (f : PTree → Multiset Nm) (d : Dict Int PTree) : Multiset Nm := (d.map fun p => f p.2).sum

theorem dsum_del {f : PTree → Multiset Nm} {d : Dict Int PTree} (hn : d.keys.Nodup) {u : Int} {b : PTree} (h : d.get? u = some b) :
    dsum f d = f b + dsum f (d.del u) := by
  induction d with
  | nil => simp [Dict.get?] at h
  | cons p d ih =>
    obtain ⟨k, t⟩ := p
    rw [Dict.get?_cons] at h
    have hn' : k ∉ Dict.keys d ∧ (Dict.keys d).Nodup := List.nodup_cons.1 hn
    split at h
    · rename_i e
      subst e
      simp only [Option.some.injEq] at h
      subst h
      have : Dict.del ((k, t) :: d) k = d := by
        unfold Dict.del
        rw [List.filter_cons_of_neg (by simp), List.filter_eq_self]
        intro p hp
        have : p.1 ∈ Dict.keys d := List.mem_map_of_mem hp
        simp only [ne_eq, decide_not, Bool.not_eq_eq_eq_not, Bool.not_true, decide_eq_false_iff_not]
        rintro rfl
        exact hn'.1 this
      rw [this]
      simp [dsum]
    · rename_i e
      have h1 : Dict.del ((k, t) :: d) u = (k, t) :: Dict.del d u := by
        unfold Dict.del
        rw [List.filter_cons_of_pos (by simpa using fun h => e h)]
      rw [h1]
      have h2 := ih hn'.2 h
      simp only [dsum, List.map_cons, List.sum_cons] at h2 ⊢
      rw [h2]
      abel

theorem dsum_set {f : PTree → Multiset Nm} {d : Dict Int PTree} (hn : d.keys.Nodup) {u : Int} {b c : PTree} (h : d.get? u = some b) :
    dsum f (d.set u c) + f b = f c + dsum f d := by
  induction d with
  | nil => simp [Dict.get?] at h
  | cons p d ih =>
    obtain ⟨k, t⟩ := p
    rw [Dict.get?_cons] at h
    have hn' : k ∉ Dict.keys d ∧ (Dict.keys d).Nodup := List.nodup_cons.1 hn
    split at h
    · rename_i e
      subst e
      simp only [Option.some.injEq] at h
      subst h
      simp only [Dict.set, if_true, dsum, List.map_cons, List.sum_cons]
      abel
    · rename_i e
      have h2 := ih hn'.2 h
      rw [Dict.set, if_neg e]
      simp only [dsum, List.map_cons, List.sum_cons] at h2 ⊢
      rw [add_assoc, h2]
      abel

theorem length_del {d : Dict Int PTree} (hn : d.keys.Nodup) {u : Int} (h : u ∈ d.keys) : (d.del u).length + 1 = d.length := by
  have h1 := Dict.keys_del d u
  have h2 : (d.del u).length = (d.del u).keys.length := by simp [Dict.keys]
  have h3 : d.length = d.keys.length := by simp [Dict.keys]
  rw [h2, h3, h1]
  have : d.keys.filter (· ≠ u) = d.keys.erase u := by
    rw [hn.erase_eq_filter]
    congr 1
    funext x
    simp [bne]
    rfl
  rw [this, List.length_erase_of_mem h]
  have := List.length_pos_of_mem h
  omega

theorem length_set {d : Dict Int PTree} {u : Int} (h : u ∈ d.keys) (c : PTree) : (d.set u c).length = d.length := by
  have := congrArg List.length (Dict.keys_set d u c)
  rw [if_pos h] at this
  simpa [Dict.keys] using this

/-- The state of the graph: the branches together have the names `L` of initial tensors; with the names left for new trees
they have the names `I` of steps.  One name is left for each branch but one, the last of them `last`. -/
structure DigInv (L I : Multiset Nm) (last : Nm) (g : Dig) : Prop where
  nodup : g.nodes.keys.Nodup
  first : ∃ h rest, g.nodes = (0, h) :: rest ∧ dsum PTree.lv rest = L ∧ dsum PTree.inn rest + (g.names : Multiset Nm) = I ∧
    rest.length = g.names.length + 1
  src : ∀ e ∈ g.edges, e.1 ≠ 0
  ends : ∀ e ∈ g.edges, e.1 ∈ g.nodes.keys ∧ e.2 ∈ g.nodes.keys
  last1 : g.names ≠ [] → g.names.getLast? = some last
  last2 : ∀ t, g.nodes.get? (-1) = some t → g.names = [] → t.name = last

theorem DigInv.merge {L I : Multiset Nm} {last : Nm} {g g' : Dig} (h : DigInv L I last g) {u v : Int} (hu : u ≠ 0) (hv : v ≠ 0) (huv : u ≠ v)
    (hm : g.mergePair u v = some g') : DigInv L I last g' := by
  unfold Dig.mergePair at hm
  split at hm
  · rename_i bu bv n names e1 e2 e3
    simp only [Option.some.injEq] at hm
    subst hm
    obtain ⟨hd, (rest : Dict Int PTree), k1, k2, k3, k4⟩ := h.first
    have hnd := h.nodup
    rw [k1] at e1 e2 hnd
    rw [Dict.get?_cons, if_neg (Ne.symm hu)] at e1
    rw [Dict.get?_cons, if_neg (Ne.symm hv)] at e2
    have hn' : (0 : Int) ∉ Dict.keys rest ∧ (Dict.keys rest).Nodup := List.nodup_cons.1 hnd
    generalize hb : PTree.mk true n (setDiff bu.subs bv.subs) bu bv = b
    have hmu := Dict.mem_keys_of_get? e1
    have hmv := Dict.mem_keys_of_get? e2
    have hset : Dict.set ((0, hd) :: rest) u b = (0, hd) :: rest.set u b := by
      rw [Dict.set, if_neg (Ne.symm hu)]
    have hdel : Dict.del ((0, hd) :: rest.set u b) v = (0, hd) :: (rest.set u b).del v := by
      unfold Dict.del
      rw [List.filter_cons_of_pos (by simpa using fun h => hv h.symm)]
    have hns := Dict.nodup_keys_set hn'.2 u b
    have hgv : (rest.set u b).get? v = some bv := by
      rw [Dict.get?_set, if_neg huv, e2]
    have hsum : ∀ f : PTree → Multiset Nm, dsum f ((rest.set u b).del v) + (f bu + f bv) = f b + dsum f rest := by
      intro f
      have a1 := dsum_set (f := f) hn'.2 (c := b) e1
      have a2 := dsum_del (f := f) hns hgv
      rw [← a1, a2]
      abel
    have hlen : ((rest.set u b).del v).length + 1 = rest.length := by
      rw [length_del hns (Dict.mem_keys_of_get? hgv), length_set hmu]
    have hnodes : (g.nodes.set u b).del v = (0, hd) :: (rest.set u b).del v := by rw [k1, hset, hdel]
    have hkeys : -1 ∈ Dict.keys ((0, hd) :: (rest.set u b).del v : Dict Int PTree) → -1 ∈ g.nodes.keys := by
      rw [← hnodes, Dict.mem_keys_del, Dict.mem_keys_set]
      rintro ⟨hc | hc, _⟩
      · rw [hc, k1]
        exact List.mem_cons_of_mem _ hmu
      · exact hc
    refine ⟨?_, ⟨hd, (rest.set u b).del v, hnodes, ?_, ?_, ?_⟩, ?_, ?_, ?_, ?_⟩
    · show ((g.nodes.set u b).del v).keys.Nodup
      exact Dict.nodup_keys_del (Dict.nodup_keys_set h.nodup _ _) _
    · have := hsum PTree.lv
      rw [← hb, PTree.mk_lv, hb, add_comm (bu.lv + bv.lv)] at this
      rw [← k2]
      exact add_right_cancel this
    · have := hsum PTree.inn
      rw [← hb, PTree.mk_inn, hb] at this
      have h2 : dsum PTree.inn ((rest.set u b).del v) = {n} + dsum PTree.inn rest := by
        refine add_right_cancel (b := bu.inn + bv.inn) ?_
        rw [this]
        abel
      rw [← k3, e3, h2, ← Multiset.cons_coe, ← Multiset.singleton_add]
      abel
    · have := k4
      rw [e3, List.length_cons] at this
      show ((rest.set u b).del v).length = names.length + 1
      omega
    · intro e he
      simp only [List.mem_filter, List.mem_append, List.mem_map] at he
      rcases he.1 with he | ⟨x, _, rfl⟩ | ⟨x, hx, rfl⟩
      · exact h.src e he
      · exact hu
      · exact h.src x hx.1
    · intro e he
      simp only [List.mem_filter, List.mem_append, List.mem_map, Bool.and_eq_true, bne_iff_ne, ne_eq] at he
      show e.1 ∈ ((g.nodes.set u b).del v).keys ∧ e.2 ∈ ((g.nodes.set u b).del v).keys
      rw [Dict.mem_keys_del, Dict.mem_keys_del, Dict.mem_keys_set, Dict.mem_keys_set]
      obtain ⟨he, he1, he2⟩ := he
      rcases he with he | ⟨x, hx, rfl⟩ | ⟨x, hx, rfl⟩
      · exact ⟨⟨.inr (h.ends e he).1, he1⟩, .inr (h.ends e he).2, he2⟩
      · exact ⟨⟨.inl rfl, he1⟩, .inr (h.ends x hx.1).2, he2⟩
      · exact ⟨⟨.inr (h.ends x hx.1).1, he1⟩, .inl rfl, he2⟩
    · intro hne
      have := h.last1 (by rw [e3]; simp)
      rw [e3, List.getLast?_cons] at this
      obtain ⟨z, hz⟩ := Option.ne_none_iff_exists'.1 (mt List.getLast?_eq_none_iff.1 hne)
      have hne' : names.getLast? = some z := hz
      rw [hne'] at this
      show names.getLast? = some last
      rw [hne', ← this]
      rfl
    · intro t ht hnil
      have hnil : names = [] := hnil
      have ht : ((g.nodes.set u b).del v).get? (-1) = some t := ht
      have hl : last = n := by
        have := h.last1 (by rw [e3]; simp)
        rw [e3, hnil] at this
        simpa using this.symm
      have hm1 : -1 ∈ g.nodes.keys := hkeys (by rw [← hnodes]; exact Dict.mem_keys_of_get? ht)
      have h2 := k4
      rw [e3, hnil] at h2
      -- two vertices besides 0: `u` and `v`; −1 is `u`
      rw [Dict.get?_del] at ht
      split at ht
      · simp at ht
      rename_i hne
      by_cases hu1 : u = -1
      · rw [Dict.get?_set, if_pos hu1, Option.some.injEq] at ht
        rw [← ht, ← hb, PTree.mk_name, hl]
      · exfalso
        rw [k1, Dict.keys, List.map_cons, List.mem_cons] at hm1
        have hm1 : (-1 : Int) ∈ rest.keys := hm1.resolve_left (by simp)
        have hsub : [u, v, -1].Subperm rest.keys := by
          refine List.subperm_of_subset ?_ ?_
          · simp only [List.nodup_cons, List.mem_cons, List.not_mem_nil, or_false, not_or, not_false_eq_true, List.nodup_nil, and_true]
            exact ⟨⟨huv, hu1⟩, fun h => hne h.symm⟩
          · intro x hx
            simp only [List.mem_cons, List.not_mem_nil, or_false] at hx
            rcases hx with rfl | rfl | rfl
            · exact hmu
            · exact hmv
            · exact hm1
        have := hsub.length_le
        simp only [Dict.keys, List.length_map, List.length_cons, List.length_nil] at this h2
        omega
  · simp at hm

/-- Merging two branches works as long as there are two. -/
theorem DigInv.merge_some {L I : Multiset Nm} {last : Nm} {g : Dig} (h : DigInv L I last g) {u v : Int} (hu : u ≠ 0) (hv : v ≠ 0) (huv : u ≠ v)
    (mu : u ∈ g.nodes.keys) (mv : v ∈ g.nodes.keys) :
    ∃ g', g.mergePair u v = some g' ∧ (∀ x, x ∈ g'.nodes.keys ↔ x ∈ g.nodes.keys ∧ x ≠ v) ∧ g'.nodes.length + 1 = g.nodes.length := by
  obtain ⟨bu, hbu⟩ := Dict.exists_get? mu
  obtain ⟨bv, hbv⟩ := Dict.exists_get? mv
  obtain ⟨hd, (rest : Dict Int PTree), k1, k2, k3, k4⟩ := h.first
  have hlen : 2 ≤ rest.length := by
    have mu' := mu
    have mv' := mv
    rw [k1, Dict.keys, List.map_cons, List.mem_cons] at mu' mv'
    have hsub : [u, v].Subperm rest.keys := by
      refine List.subperm_of_subset (by simpa using huv) ?_
      intro x hx
      simp only [List.mem_cons, List.not_mem_nil, or_false] at hx
      rcases hx with rfl | rfl
      · exact mu'.resolve_left hu
      · exact mv'.resolve_left hv
    simpa [Dict.keys] using hsub.length_le
  obtain ⟨n, names, hn⟩ : ∃ n names, g.names = n :: names := by
    cases hn : g.names with
    | nil => rw [hn] at k4; simp at k4; omega
    | cons n names => exact ⟨n, names, rfl⟩
  refine ⟨_, by unfold Dig.mergePair; rw [hbu, hbv, hn], fun x => ?_, ?_⟩
  · show x ∈ ((g.nodes.set u _).del v).keys ↔ _
    rw [Dict.mem_keys_del, Dict.mem_keys_set]
    constructor
    · rintro ⟨rfl | h1, h2⟩
      · exact ⟨mu, h2⟩
      · exact ⟨h1, h2⟩
    · rintro ⟨h1, h2⟩
      exact ⟨.inr h1, h2⟩
  · show ((g.nodes.set u _).del v).length + 1 = _
    rw [length_del (Dict.nodup_keys_set h.nodup _ _) (Dict.mem_keys_set.2 (.inr mv)), length_set mu]

theorem getD_pos_ne {h : PTree} {rest : Dict Int PTree} (hn : Dict.keys ((0, h) :: rest : Dict Int PTree) |>.Nodup) {i : Nat}
    (h1 : 1 ≤ i) (h2 : i < (Dict.keys ((0, h) :: rest : Dict Int PTree)).length) : (Dict.keys ((0, h) :: rest : Dict Int PTree)).getD i 0 ≠ 0 := by
  rw [List.getD_eq_getElem?_getD, List.getElem?_eq_getElem h2, Option.getD_some]
  intro hc
  have h0 : (Dict.keys ((0, h) :: rest : Dict Int PTree))[0]'(by omega) = 0 := rfl
  have := (hn.getElem_inj_iff).1 (hc.trans h0.symm)
  omega

theorem getD_mem' {l : List Int} {i : Nat} (h : i < l.length) : l.getD i 0 ∈ l := by
  rw [List.getD_eq_getElem?_getD, List.getElem?_eq_getElem h, Option.getD_some]
  exact List.getElem_mem h

theorem DigInv.cands1 {L I : Multiset Nm} {last : Nm} {g : Dig} (h : DigInv L I last g) {width k : Nat} {u v : Int} {w : Nat}
    (hm : ((u, v), w) ∈ g.cands1 width k) : (u ≠ 0 ∧ v ≠ 0) ∧ u ∈ g.nodes.keys ∧ v ∈ g.nodes.keys := by
  obtain ⟨hd, rest, k1, _⟩ := h.first
  have hnd := h.nodup
  unfold Dig.cands1 at hm
  dsimp only at hm
  rw [List.mem_flatMap] at hm
  obtain ⟨⟨x, i⟩, hx, hm⟩ := hm
  dsimp only at hm
  split at hm
  · simp at hm
  rename_i hc
  rw [not_or, not_or] at hc
  simp only [List.mem_map, List.mem_filter, Prod.mk.injEq] at hm
  obtain ⟨v', ⟨hv, _⟩, ⟨rfl, rfl⟩, _⟩ := hm
  have hmx := (List.mem_zipIdx hx).2.2
  suffices hs : v' ≠ 0 ∧ v' ∈ g.nodes.keys from ⟨⟨hc.1, hs.1⟩, by rw [hmx]; exact List.getElem_mem _, hs.2⟩
  generalize hv1 : (if g.nodes.keys.getD (i + 1) 0 ≠ -1 then g.nodes.keys.getD (i + 1) 0 else g.nodes.keys.getD (g.nodes.keys.length - 2) 0) = v1 at hv
  have h1 : v1 ≠ 0 ∧ v1 ∈ g.nodes.keys := by
    rw [← hv1]
    rw [k1] at hnd hc ⊢
    split
    · exact ⟨getD_pos_ne hnd (by omega) (by omega), getD_mem' (by omega)⟩
    · exact ⟨getD_pos_ne hnd (by omega) (by omega), getD_mem' (by omega)⟩
  split at hv
  · rename_i p hp
    have h2 : p ≠ 0 ∧ p ∈ g.nodes.keys := by
      have := List.min?_mem hp
      rw [List.mem_map] at this
      obtain ⟨e, he, rfl⟩ := this
      exact ⟨h.src e (List.mem_filter.1 he).1, (h.ends e (List.mem_filter.1 he).1).1⟩
    split at hv
    · simp only [List.mem_cons, List.not_mem_nil, or_false] at hv
      rcases hv with rfl | rfl
      · exact h1
      · exact h2
    · rw [List.mem_singleton.1 hv]
      exact h1
  · rw [List.mem_singleton.1 hv]
    exact h1

theorem DigInv.cands2 {L I : Multiset Nm} {last : Nm} {g : Dig} (h : DigInv L I last g) {width k : Nat} {u v : Int} {w : Nat}
    (hm : ((u, v), w) ∈ g.cands2 width k) : (u ≠ 0 ∧ v ≠ 0) ∧ u ∈ g.nodes.keys ∧ v ∈ g.nodes.keys := by
  obtain ⟨hd, rest, k1, _⟩ := h.first
  have hnd := h.nodup
  unfold Dig.cands2 at hm
  dsimp only at hm
  rw [List.mem_flatMap] at hm
  obtain ⟨⟨x, i⟩, hx, hm⟩ := hm
  dsimp only at hm
  split at hm
  · simp at hm
  rename_i hc
  rw [not_or, not_or] at hc
  simp only [List.mem_map, List.mem_filter, Prod.mk.injEq] at hm
  obtain ⟨v', ⟨hv, _⟩, ⟨rfl, rfl⟩, _⟩ := hm
  have hmx := (List.mem_zipIdx hx).2.2
  suffices hs : v' ≠ 0 ∧ v' ∈ g.nodes.keys from ⟨⟨hc.1, hs.1⟩, by rw [hmx]; exact List.getElem_mem _, hs.2⟩
  have h1 : g.nodes.keys.getD (i - 1) 0 ≠ 0 ∧ g.nodes.keys.getD (i - 1) 0 ∈ g.nodes.keys := by
    have hi := List.snd_lt_of_mem_zipIdx hx
    rw [k1] at hnd hi ⊢
    exact ⟨getD_pos_ne hnd (by omega) (by omega), getD_mem' (by omega)⟩
  split at hv
  · rename_i p hp
    have h2 : p ≠ 0 ∧ p ∈ g.nodes.keys := by
      have := List.max?_mem hp
      rw [List.mem_map] at this
      obtain ⟨e, he, rfl⟩ := this
      have hm := (List.mem_filter.1 he).2
      simp only [Bool.and_eq_true, bne_iff_ne] at hm
      exact ⟨hm.2, (h.ends e (List.mem_filter.1 he).1).2⟩
    split at hv
    · simp only [List.mem_cons, List.not_mem_nil, or_false] at hv
      rcases hv with rfl | rfl
      · exact h1
      · exact h2
    · rw [List.mem_singleton.1 hv]
      exact h1
  · rw [List.mem_singleton.1 hv]
    exact h1

theorem DigInv.mergeAll {L I : Multiset Nm} {last : Nm} {sel : Int × Int → Int × Int} (hsel : ∀ p, sel p = p ∨ sel p = (p.2, p.1)) {ps : List (Int × Int)} :
    ∀ {g g' : Dig}, DigInv L I last g → (∀ p ∈ ps, p.1 ≠ 0 ∧ p.2 ≠ 0 ∧ p.1 ≠ p.2) →
      ps.foldlM (fun g p => g.mergePair (sel p).1 (sel p).2) g = some g' → DigInv L I last g' := by
  induction ps with
  | nil =>
    intro g g' h _ hf
    simp only [List.foldlM_nil, Option.pure_def, Option.some.injEq] at hf
    exact hf ▸ h
  | cons p ps ih =>
    intro g g' h hp hf
    rw [List.foldlM_cons] at hf
    cases hm : g.mergePair (sel p).1 (sel p).2 with
    | none => rw [hm] at hf; simp at hf
    | some g1 =>
      rw [hm] at hf
      obtain ⟨h1, h2, h3⟩ := hp p List.mem_cons_self
      refine ih (h.merge ?_ ?_ ?_ hm) (fun q hq => hp q (List.mem_cons_of_mem _ hq)) hf
      · rcases hsel p with e | e <;> rw [e] <;> assumption
      · rcases hsel p with e | e <;> rw [e] <;> assumption
      · rcases hsel p with e | e <;> rw [e]
        · exact h3
        · exact h3.symm

theorem DigInv.rounds {mt : List ((Int × Int) × Nat) → List (Int × Int)} (hmt : MatchOK mt) {L I : Multiset Nm} {last : Nm} {width k fuel : Nat} :
    ∀ {g g' : Dig}, DigInv L I last g → g.rounds mt width k fuel = some g' → DigInv L I last g' := by
  induction fuel with
  | zero => intro g g' _ hr; simp [Dig.rounds] at hr
  | succ fuel ih =>
    intro g g' h hr
    unfold Dig.rounds at hr
    split at hr
    · exact (Option.some.inj hr) ▸ h
    rename_i p ps hp
    have hok1 : ∀ q ∈ p :: ps, q.1 ≠ 0 ∧ q.2 ≠ 0 ∧ q.1 ≠ q.2 := by
      intro q hq
      rw [← hp] at hq
      obtain ⟨w, hw | hw⟩ := hmt.edge _ q hq
      · exact ⟨(h.cands1 hw).1.1, (h.cands1 hw).1.2, hmt.loop _ q hq⟩
      · exact ⟨(h.cands1 hw).1.2, (h.cands1 hw).1.1, hmt.loop _ q hq⟩
    split at hr
    · simp at hr
    rename_i g1 hg1
    have h1 : DigInv L I last g1 := h.mergeAll (sel := fun p => (max p.1 p.2, min p.1 p.2)) (fun p => by
      rcases le_total p.1 p.2 with e | e
      · right; simp [e]
      · left; simp [e]) hok1 hg1
    split at hr
    · exact (Option.some.inj hr) ▸ h1
    rename_i p2 ps2 hp2
    have hok2 : ∀ q ∈ p2 :: ps2, q.1 ≠ 0 ∧ q.2 ≠ 0 ∧ q.1 ≠ q.2 := by
      intro q hq
      rw [← hp2] at hq
      obtain ⟨w, hw | hw⟩ := hmt.edge _ q hq
      · exact ⟨(h1.cands2 hw).1.1, (h1.cands2 hw).1.2, hmt.loop _ q hq⟩
      · exact ⟨(h1.cands2 hw).1.2, (h1.cands2 hw).1.1, hmt.loop _ q hq⟩
    split at hr
    · simp at hr
    rename_i g2 hg2
    exact ih (h1.mergeAll (sel := fun p => (min p.1 p.2, max p.1 p.2)) (fun p => by
      rcases le_total p.1 p.2 with e | e
      · left; simp [e]
      · right; simp [e]) hok2 hg2) hr

/-- Pairs of different vertices without common vertices can be merged one after the other. -/
theorem DigInv.mergeAll_some {L I : Multiset Nm} {last : Nm} {sel : Int × Int → Int × Int} (hsel : ∀ p, sel p = p ∨ sel p = (p.2, p.1)) {ps : List (Int × Int)} :
    ∀ {g : Dig}, DigInv L I last g → (∀ p ∈ ps, (p.1 ≠ 0 ∧ p.2 ≠ 0 ∧ p.1 ≠ p.2) ∧ p.1 ∈ g.nodes.keys ∧ p.2 ∈ g.nodes.keys) →
      (ps.Pairwise fun p q => p.1 ≠ q.1 ∧ p.1 ≠ q.2 ∧ p.2 ≠ q.1 ∧ p.2 ≠ q.2) →
      ∃ g', ps.foldlM (fun g p => g.mergePair (sel p).1 (sel p).2) g = some g' ∧ g'.nodes.length + ps.length = g.nodes.length := by
  induction ps with
  | nil => intro g _ _ _; exact ⟨g, rfl, rfl⟩
  | cons p ps ih =>
    intro g h hp hd
    obtain ⟨⟨a1, a2, a3⟩, a4, a5⟩ := hp p List.mem_cons_self
    obtain ⟨hd1, hd2⟩ := List.pairwise_cons.1 hd
    have hpq : (sel p).1 ≠ 0 ∧ (sel p).2 ≠ 0 ∧ (sel p).1 ≠ (sel p).2 ∧ (sel p).1 ∈ g.nodes.keys ∧ (sel p).2 ∈ g.nodes.keys ∧ ((sel p).2 = p.1 ∨ (sel p).2 = p.2) := by
      rcases hsel p with e | e <;> rw [e]
      · exact ⟨a1, a2, a3, a4, a5, .inr rfl⟩
      · exact ⟨a2, a1, a3.symm, a5, a4, .inl rfl⟩
    obtain ⟨b1, b2, b3, b4, b5, b6⟩ := hpq
    obtain ⟨g1, e1, e2, e3⟩ := h.merge_some b1 b2 b3 b4 b5
    have h1 := h.merge b1 b2 b3 e1
    obtain ⟨g', k1, k2⟩ := ih h1 (fun q hq => by
      obtain ⟨c1, c2, c3⟩ := hp q (List.mem_cons_of_mem _ hq)
      obtain ⟨f1, f2, f3, f4⟩ := hd1 q hq
      refine ⟨c1, (e2 _).2 ⟨c2, ?_⟩, (e2 _).2 ⟨c3, ?_⟩⟩
      · rcases b6 with b6 | b6 <;> rw [b6]
        · exact f1.symm
        · exact f3.symm
      · rcases b6 with b6 | b6 <;> rw [b6]
        · exact f2.symm
        · exact f4.symm) hd2
    refine ⟨g', by rw [List.foldlM_cons, e1]; exact k1, ?_⟩
    rw [List.length_cons]
    omega

/-- contraction_tree.py:202-279: the rounds come to an end, without an exception. -/
theorem DigInv.rounds_some {mt : List ((Int × Int) × Nat) → List (Int × Int)} (hmt : MatchOK mt) {L I : Multiset Nm} {last : Nm} {width k fuel : Nat} :
    ∀ {g : Dig}, DigInv L I last g → g.nodes.length < fuel → ∃ g', g.rounds mt width k fuel = some g' := by
  induction fuel with
  | zero => intro g _ hl; omega
  | succ fuel ih =>
    intro g h hl
    unfold Dig.rounds
    split
    · exact ⟨g, rfl⟩
    rename_i p ps hp
    have hs1 : ∀ p : Int × Int, (max p.1 p.2, min p.1 p.2) = p ∨ (max p.1 p.2, min p.1 p.2) = (p.2, p.1) := fun p => by
      rcases le_total p.1 p.2 with e | e
      · right; simp [e]
      · left; simp [e]
    have hs2 : ∀ p : Int × Int, (min p.1 p.2, max p.1 p.2) = p ∨ (min p.1 p.2, max p.1 p.2) = (p.2, p.1) := fun p => by
      rcases le_total p.1 p.2 with e | e
      · left; simp [e]
      · right; simp [e]
    have hok1 : ∀ q ∈ p :: ps, (q.1 ≠ 0 ∧ q.2 ≠ 0 ∧ q.1 ≠ q.2) ∧ q.1 ∈ g.nodes.keys ∧ q.2 ∈ g.nodes.keys := by
      intro q hq
      rw [← hp] at hq
      obtain ⟨w, hw | hw⟩ := hmt.edge _ q hq
      · exact ⟨⟨(h.cands1 hw).1.1, (h.cands1 hw).1.2, hmt.loop _ q hq⟩, (h.cands1 hw).2⟩
      · exact ⟨⟨(h.cands1 hw).1.2, (h.cands1 hw).1.1, hmt.loop _ q hq⟩, (h.cands1 hw).2.symm⟩
    obtain ⟨g1, e1, e2⟩ := h.mergeAll_some (sel := fun p => (max p.1 p.2, min p.1 p.2)) hs1 hok1 (by rw [← hp]; exact hmt.disj _)
    have h1 : DigInv L I last g1 := h.mergeAll (sel := fun p => (max p.1 p.2, min p.1 p.2)) hs1 (fun q hq => (hok1 q hq).1) e1
    rw [e1]
    dsimp only
    split
    · exact ⟨g1, rfl⟩
    rename_i p2 ps2 hp2
    have hok2 : ∀ q ∈ p2 :: ps2, (q.1 ≠ 0 ∧ q.2 ≠ 0 ∧ q.1 ≠ q.2) ∧ q.1 ∈ g1.nodes.keys ∧ q.2 ∈ g1.nodes.keys := by
      intro q hq
      rw [← hp2] at hq
      obtain ⟨w, hw | hw⟩ := hmt.edge _ q hq
      · exact ⟨⟨(h1.cands2 hw).1.1, (h1.cands2 hw).1.2, hmt.loop _ q hq⟩, (h1.cands2 hw).2⟩
      · exact ⟨⟨(h1.cands2 hw).1.2, (h1.cands2 hw).1.1, hmt.loop _ q hq⟩, (h1.cands2 hw).2.symm⟩
    obtain ⟨g2, e3, e4⟩ := h1.mergeAll_some (sel := fun p => (min p.1 p.2, max p.1 p.2)) hs2 hok2 (by rw [← hp2]; exact hmt.disj _)
    rw [e3]
    dsimp only
    refine ih (h1.mergeAll (sel := fun p => (min p.1 p.2, max p.1 p.2)) hs2 (fun q hq => (hok2 q hq).1) e3) ?_
    rw [List.length_cons] at e2 e4
    omega

theorem rebuild_some {bs : List PTree} : ∀ {cur : PTree} {names : List Nm}, bs.length ≤ names.length → ∃ t, Dig.rebuild bs cur names = some t := by
  induction bs with
  | nil => intro cur names _; exact ⟨cur, rfl⟩
  | cons b bs ih =>
    intro cur names h
    cases names with
    | nil => simp at h
    | cons n names =>
      rw [Dig.rebuild]
      exact ih (by simpa using h)

/-- The tree can be put together if the vertex −1 is still there. -/
theorem DigInv.whole_some {L I : Multiset Nm} {last : Nm} {g : Dig} (h : DigInv L I last g) (hm : -1 ∈ g.nodes.keys) : ∃ t, g.whole = some t := by
  obtain ⟨cur, hcur⟩ := Dict.exists_get? hm
  unfold Dig.whole
  rw [hcur]
  dsimp only
  obtain ⟨hd, (rest : Dict Int PTree), k1, k2, k3, k4⟩ := h.first
  refine rebuild_some ?_
  rw [List.length_map, List.length_reverse, k1, List.filter_cons_of_pos (by rfl), List.drop_one, List.tail_cons]
  have hm' : -1 ∈ rest.keys := by
    rw [k1, Dict.keys, List.map_cons, List.mem_cons] at hm
    exact hm.resolve_left (by simp)
  have hnd : rest.keys.Nodup := by
    have := h.nodup
    rw [k1] at this
    exact (List.nodup_cons.1 this).2
  have h2 := length_del hnd hm'
  have h3 : rest.filter (fun p => p.1 != -1) = rest.del (-1) := by
    unfold Dict.del
    refine List.filter_congr fun p _ => ?_
    simp [bne]
    rfl
  rw [h3]
  omega

theorem rebuild_spec {bs : List PTree} : ∀ {cur t : PTree} {names : List Nm}, Dig.rebuild bs cur names = some t → bs.length = names.length →
    t.lv = (bs.map PTree.lv).sum + cur.lv ∧ t.inn = (bs.map PTree.inn).sum + cur.inn + (names : Multiset Nm) ∧
    (t.name = cur.name ∧ names = [] ∨ names.getLast? = some t.name) := by
  induction bs with
  | nil =>
    intro cur t names h hl
    simp only [Dig.rebuild, Option.some.injEq] at h
    subst h
    have : names = [] := List.length_eq_zero_iff.1 hl.symm
    subst this
    simp
  | cons b bs ih =>
    intro cur t names h hl
    cases names with
    | nil => simp at hl
    | cons n names =>
      rw [Dig.rebuild] at h
      obtain ⟨h1, h2, h3⟩ := ih h (by simpa using hl)
      refine ⟨?_, ?_, ?_⟩
      · rw [h1, PTree.mk_lv, List.map_cons, List.sum_cons]
        abel
      · rw [h2, PTree.mk_inn, List.map_cons, List.sum_cons, ← Multiset.cons_coe, ← Multiset.singleton_add]
        abel
      · right
        rcases h3 with ⟨h3, rfl⟩ | h3
        · rw [h3, PTree.mk_name]
          rfl
        · rw [List.getLast?_cons, h3]
          rfl

theorem DigInv.whole {L I : Multiset Nm} {last : Nm} {g : Dig} (h : DigInv L I last g) {t : PTree} (hw : g.whole = some t) :
    t.lv = L ∧ t.inn = I ∧ t.name = last := by
  unfold Dig.whole at hw
  split at hw
  · simp at hw
  rename_i cur hcur
  obtain ⟨hd, (rest : Dict Int PTree), k1, k2, k3, k4⟩ := h.first
  have hm := k4
  have hnd := h.nodup
  rw [k1] at hcur hnd
  rw [Dict.get?_cons, if_neg (by decide)] at hcur
  have hn' : (0 : Int) ∉ Dict.keys rest ∧ (Dict.keys rest).Nodup := List.nodup_cons.1 hnd
  have hdrop : (g.nodes.filter fun p => p.1 != -1).drop 1 = rest.del (-1) := by
    rw [k1, List.filter_cons_of_pos (by rfl), List.drop_one, List.tail_cons]
    unfold Dict.del
    refine List.filter_congr fun p _ => ?_
    simp [bne]
    rfl
  rw [hdrop] at hw
  have hlen : (rest.del (-1)).length + 1 = rest.length := length_del hn'.2 (Dict.mem_keys_of_get? hcur)
  obtain ⟨a1, a2, a3⟩ := rebuild_spec hw (by rw [List.length_map, List.length_reverse]; omega)
  have hsum : ∀ f : PTree → Multiset Nm, (((rest.del (-1)).reverse.map (·.2)).map f).sum + f cur = dsum f rest := by
    intro f
    rw [dsum_del hn'.2 hcur, List.map_reverse, List.map_reverse, List.sum_reverse, add_comm]
    simp [dsum, Function.comp_def]
  refine ⟨by rw [a1, hsum, k2], by rw [a2, hsum, k3], ?_⟩
  rcases a3 with ⟨b1, b2⟩ | b1
  · rw [b1]
    refine h.last2 cur ?_ b2
    rw [k1, Dict.get?_cons, if_neg (by decide), hcur]
  · have hne : g.names ≠ [] := by
      intro hc
      rw [hc] at b1
      simp at b1
    have := h.last1 hne
    rw [b1, Option.some.injEq] at this
    exact this

end Verif
