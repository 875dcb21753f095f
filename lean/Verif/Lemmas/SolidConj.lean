import Verif.Lemmas.SolidOps
/-!
# Helper lemmas: conjugates, products and norms of tensors that can be contracted
-/

set_option linter.unusedSectionVars false

namespace Verif

namespace TVal

variable {R : Type} [CommSemiring R] [StarRing R]

theorem tucked_conj {t t' : TVal R} (h : conj t = .ok t') (ht : Tucked t) : Tucked t' := fun s' hs' x hx hxo => by
  obtain ⟨s, rfl⟩ := conj_net h ⟨s', hs'⟩
  obtain ⟨tn, e1, -, e2, -, e3⟩ := conj_ofTN h
  obtain rfl := ofTN_inj (hs'.symm.trans e1)
  rw [e2] at hx
  rw [e3] at hxo
  exact ht s rfl x hx hxo

theorem conjTerms_forall : ∀ (ts ts' : List (Nm × TVal R)), conjTerms ts = .ok ts' →
    List.Forall₂ (fun p p' => p'.1 = p.1 ∧ conj p.2 = .ok p'.2) ts ts'
  | [], ts', h => by rw [conjTerms] at h; cases h; exact .nil
  | (n, t) :: ts, ts', h => by
    rw [conjTerms] at h
    split at h
    · rename_i t1 ts1 h1 h2
      cases h
      exact .cons ⟨rfl, h1⟩ (conjTerms_forall ts ts1 h2)
    · cases h
    · cases h

theorem forall_mem_right {A B : Type} {P : A → B → Prop} {l : List A} {l' : List B} (h : List.Forall₂ P l l') {b : B} (hb : b ∈ l') :
    ∃ a ∈ l, P a b := by
  induction h with
  | nil => cases hb
  | cons h _ ih =>
    rcases List.mem_cons.1 hb with rfl | hb
    · exact ⟨_, List.mem_cons_self, h⟩
    · obtain ⟨a, h1, h2⟩ := ih hb
      exact ⟨a, List.mem_cons_of_mem _ h1, h2⟩

/-- Conjugates of solid tensors are solid. -/
theorem solid_conj {d : Nat} {t : TVal R} (hs : Solid d t) : ∀ {t' : TVal R}, conj t = .ok t' → Solid d t' := by
  induction hs with
  | ten a => intro t' h; rw [conj] at h; cases h; exact .ten _
  | @sum d ts sh h1 h2 h3 ih =>
    intro t' h
    rw [conj] at h
    split at h
    · cases h
    · cases hc : conjTerms ts with
      | error e => rw [hc] at h; cases h
      | ok ts' =>
        rw [hc] at h; cases h
        have hf := conjTerms_forall ts ts' hc
        refine .sum sh (fun e => ?_) (fun p' hp' => ?_) fun p' hp' => ?_
        · subst e
          cases hf
          exact h1 rfl
        · obtain ⟨p, hp, -, hpp⟩ := forall_mem_right hf hp'
          exact ih p hp hpp
        · obtain ⟨p, hp, -, hpp⟩ := forall_mem_right hf hp'
          rw [(conj_spec _ _ hpp).1, h3 p hp]
  | @net d tn t h1 h2 h3 h4 h5 h6 h7 ih =>
    intro t' h
    subst h1
    obtain ⟨tn', rfl, hn, he, ha, ho⟩ := conj_ofTN h
    have hf := conjNodes_forall _ _ hn
    have hkeys := forall_keys hf
    have hedim : tn'.edim = tn.edim := by unfold TN.edim; rw [he]
    refine .net rfl (expandable_conj _ h2 h) (by unfold TN.FixShort; rw [he]; exact h3) (fun e hee => ?_) ⟨?_, ?_, fun n r t hr ht hi e hne => ?_⟩
      (fun n r hr => ?_) fun n r t hr ht => ?_
    · rw [he] at hee
      rcases h4 e hee with ⟨p, hp, hpe⟩ | h | h
      · obtain ⟨r', k1, k2, -⟩ := forall_get' hf (Dict.get?_of_mem h2.1.nodes_nodup hp)
        dsimp only at k2
        exact Or.inl ⟨_, Dict.mem_of_get? k1, by dsimp only; rw [k2]; exact hpe⟩
      · refine Or.inr (Or.inl ?_)
        unfold TN.IsFixed at h ⊢
        rw [he]; exact h
      · exact h.1.elim
    · rw [hkeys]; exact h5.heads
    · rw [he]; exact h5.edges
    · obtain ⟨r0, g1, -, t0, t', g2, g3, g4⟩ := forall_get hf hr
      dsimp only at g2 g3
      rw [ht] at g3; cases g3
      rw [he]
      exact (h5.nodes n r0 t0 g1 g2 (conj_net g4 hi) e hne).imp id (tucked_conj g4)
    · obtain ⟨r0, g1, gl, t0, t', g2, g3, g4⟩ := forall_get hf hr
      dsimp only at g2 g3 gl
      obtain ⟨t1, k1, k2⟩ := h6 n r0 g1
      rw [g2] at k1; cases k1
      exact ⟨t', g3, by rw [(conj_spec _ _ g4).1, k2, gl, hedim]⟩
    · obtain ⟨r0, g1, -, t0, t', g2, g3, g4⟩ := forall_get hf hr
      dsimp only at g2 g3
      rw [ht] at g3; cases g3
      exact ih n r0 t0 g1 g2 g4

/-- `norm_squared` of a solid tensor. -/
theorem solid_norm {ia ib : Nm} {a t : TVal R} {sh : List Nat} {d : Nat} (hia : NodeName ia) (hib : NodeName ib) (hne : ia ≠ ib)
    (hs : a.shape = some (sh.map some)) (hta : Solid d a) (ha : Apart ia sh.length a) (hb : Apart ib sh.length a)
    (h : normNet ia a ib = .ok t) : Solid (d + 1) t := by
  unfold normNet at h
  cases hc : conj a with
  | error e =>
    obtain ⟨tn, h1, -⟩ := oneNode (τ := TVal R) (o := false) (i := ia) (t := a) hs
    rw [hc, h1] at h
    cases h
  | ok a' =>
    have hs' := (conj_spec _ _ hc).1.trans hs
    have hov : Overlap sh sh := fun k d d' h h' => by rw [h] at h'; simpa using h'
    obtain ⟨tn, tn', h1, h2, h3, h4, h5⟩ := twoNodes (τ := TVal R) (o := false) (a := a) (b := a') hne hs hs' hov
    have hS : longer sh sh = sh := by unfold longer; split <;> rfl
    rw [hS] at h3
    have hc1 : tn.Consistent := TN.Consistent.empty.addNode (by simp [Dict.keys]) h1
    obtain ⟨tn2, k1, -, k3, -⟩ := oneNode (τ := TVal R) (o := false) (i := ia) (t := a) hs
    rw [h1] at k1; cases k1
    have hcs : tn'.Consistent := hc1.addNode (fun _ => by rw [k3]; simpa [Dict.keys] using hne.symm) h2
    rw [hc, h1] at h
    dsimp only at h
    rw [h2] at h
    cases h
    refine solid_range hcs h3 (fun n r hr => ?_) ⟨_, by rw [h4]; exact List.mem_cons_self, rfl⟩
    have hm := Dict.mem_of_get? hr
    rw [h4] at hm
    rcases List.mem_cons.1 hm with hm | hm
    · cases hm
      exact ⟨hia, sh.length, a, le_refl _, rfl, rfl, hta, by rw [List.take_length]; exact hs, fun h => ha.free h3 h⟩
    · rw [List.mem_singleton] at hm
      cases hm
      refine ⟨hib, sh.length, a', le_refl _, rfl, rfl, solid_conj hta hc, by rw [List.take_length]; exact hs', fun h => ?_⟩
      exact Apart.free h3 (fun _ => (hb (conj_net hc h)).imp id (tucked_conj hc)) h

/-- C25 for the total entries. -/
theorem mul_tot {ia ib : Nm} {a b : TVal R} {sa sb : List Nat} (hne : ia ≠ ib)
    (ha : a.shape = some (sa.map some)) (hb : b.shape = some (sb.map some)) (hov : Overlap sa sb) :
    ∃ c, mul ia a ib b = .ok c ∧ c.shape = some ((sa ++ sb).map some) ∧
      ∀ i j, InRange sa i → InRange sb j → c.tot (i ++ j) = if Overlap i j then a.tot i * b.tot j else 0 := by
  obtain ⟨tn, tn', h1, h2, h3, h4, h5⟩ := twoNodes (τ := TVal R) (a := a) (b := b) (o := true) hne ha hb hov
  rw [if_pos rfl] at h5
  have hc1 : tn.Consistent := TN.Consistent.empty.addNode (by simp [Dict.keys]) h1
  obtain ⟨tn2, k1, -, k3, -⟩ := oneNode (τ := TVal R) (o := true) (i := ia) (t := a) ha
  rw [h1] at k1; cases k1
  have hcs : tn'.Consistent := hc1.addNode (fun _ => by rw [k3]; simpa [Dict.keys] using hne.symm) h2
  have hr : mul ia a ib b = .ok (ofTN tn') := by unfold mul; rw [h1]; dsimp only; rw [h2]
  obtain ⟨c, m1, m2, -⟩ := c25_actual hne ha hb hov
  rw [hr] at m1; cases m1
  refine ⟨_, hr, m2, fun i j hi hj => ?_⟩
  have hli : i.length = sa.length := hi.length_eq
  have hlj : j.length = sb.length := hj.length_eq
  have hfs : tn'.factors tot = [⟨rangeLegs sa.length, a.tot⟩, ⟨rangeLegs sb.length, b.tot⟩] := by
    unfold TN.factors; rw [h4]; rfl
  have hll : (longer sa sb).length = max sa.length sb.length := by unfold longer; split <;> omega
  rw [tot_ofTN]
  by_cases hov' : Overlap i j
  · rw [if_pos hov']
    have hll' : (longer i j).length = max sa.length sb.length := by unfold longer; split <;> omega
    have hx : InRange (longer sa sb) (longer i j) := by
      unfold longer
      by_cases hl : sa.length ≤ sb.length
      · rw [if_pos hl, if_pos (by omega)]; exact hj
      · rw [if_neg hl, if_neg (by omega)]; exact hi
    have e1 : (rangeLegs sa.length).map (listAsg (longer i j)) = i := by
      rw [← hli, rangeLegs_map _ (by omega)]
      exact (longer_left hov').symm
    have e2 : (rangeLegs sb.length).map (listAsg (longer i j)) = j := by
      rw [← hlj, rangeLegs_map _ (by omega)]
      exact (longer_right hov').symm
    have e3 : i ++ j = (List.range sa.length ++ List.range sb.length).map fun k => (longer i j)[k]?.getD 0 := by
      have : ∀ m, (List.range m).map (fun k => (longer i j)[k]?.getD 0) = (rangeLegs m).map (listAsg (longer i j)) := fun m => by
        unfold rangeLegs
        rw [List.map_map]
        exact List.map_congr_left fun k _ => (listAsg_int _ _).symm
      rw [List.map_append, this, this, e1, e2]
    rw [e3, open_at (S := longer sa sb) hcs.edges_nodup h3 (by rw [h5, List.map_append]; rfl) (fun k hk => ?_) (fun k hk => ?_) hfs ?_ hx]
    · simp [prodAt, Factor.at, e1, e2]
    · intro g hg e he
      simp only [List.mem_cons, List.not_mem_nil, or_false] at hg
      rcases hg with rfl | rfl
      · obtain ⟨k, hk, rfl⟩ := mem_rangeLegs.1 he
        exact mem_rangeLegs.2 ⟨k, by omega, rfl⟩
      · obtain ⟨k, hk, rfl⟩ := mem_rangeLegs.1 he
        exact mem_rangeLegs.2 ⟨k, by omega, rfl⟩
    · rw [List.mem_append, List.mem_range, List.mem_range]; omega
    · rw [List.mem_append, List.mem_range, List.mem_range] at hk; omega
  · rw [if_neg hov']
    refine open_none fun f hf => hov' fun k d d' hk hk' => ?_
    rw [h5, List.map_append] at hf
    obtain ⟨hf1, hf2⟩ := List.append_inj hf (by simp [rangeLegs_length, hli])
    have g1 : k < sa.length := by have := (List.getElem?_eq_some_iff.1 hk).1; omega
    have g2 : k < sb.length := by have := (List.getElem?_eq_some_iff.1 hk').1; omega
    rw [← hf1, List.getElem?_map, rangeLegs_get g1] at hk
    rw [← hf2, List.getElem?_map, rangeLegs_get g2] at hk'
    simp at hk hk'
    omega

/-- C28 for the total entries. -/
theorem norm_tot {ia ib : Nm} {t : TVal R} {sh : List Nat} (hne : ia ≠ ib) (hw : Whole t)
    (hs : t.shape = some (sh.map some)) :
    ∃ c, normNet ia t ib = .ok c ∧ c.shape = some [] ∧ c.tot [] = sumIdx sh fun idx => t.tot idx * star (t.tot idx) := by
  obtain ⟨t', a1, a2, -⟩ := c26_conj hw
  have a3 := conj_tot _ _ a1
  obtain ⟨tn, tn', h1, h2, h3, h4, h5⟩ := twoNodes (τ := TVal R) (a := t) (b := t') (o := false) hne hs (a2.trans hs)
    (sb := sh) (fun k d d' h h' => by rw [h] at h'; simpa using h')
  rw [if_neg (by simp)] at h5
  have hc1 : tn.Consistent := TN.Consistent.empty.addNode (by simp [Dict.keys]) h1
  obtain ⟨tn2, k1, -, k3, -⟩ := oneNode (τ := TVal R) (o := false) (i := ia) (t := t) hs
  rw [h1] at k1; cases k1
  have hcs : tn'.Consistent := hc1.addNode (fun _ => by rw [k3]; simpa [Dict.keys] using hne.symm) h2
  have hS : longer sh sh = sh := by unfold longer; split <;> rfl
  rw [hS] at h3
  refine ⟨ofTN tn', ?_, ?_, ?_⟩
  · unfold normNet; rw [h1, a1]; dsimp only; rw [h2]
  · exact shape_range (op := []) h3 h5 (by simp)
  · rw [tot_ofTN]
    unfold TN.total
    have hfs : tn'.factors tot = [⟨rangeLegs sh.length, t.tot⟩, ⟨rangeLegs sh.length, t'.tot⟩] := by
      unfold TN.factors; rw [h4]; rfl
    have hperm : tn'.edges.keys.Perm (rangeLegs sh.length) :=
      (List.perm_ext_iff_of_nodup hcs.edges_nodup (rangeLegs_nodup _)).2 h3.1
    rw [hfs, h5, ← sumOver_eq_sumIdx (dom := tn'.dom) (l := rangeLegs sh.length) (rangeLegs_nodup _) (rangeLegs_length _)
      (fun k e d hk hd => ?_) _ (fun _ => 0)]
    · rw [sumOver_perm hperm]
      refine sumOver_congr fun b => ?_
      simp [prodAt, Factor.at, a3]
    · have : k < sh.length := (List.getElem?_eq_some_iff.1 hd).1
      rw [rangeLegs_get this] at hk
      cases hk
      exact h3.dom hd

end TVal

end Verif
