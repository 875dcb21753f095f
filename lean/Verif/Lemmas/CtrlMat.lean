import Verif.Lemmas.Operation
/-!
# The conversion of a `ControlledOperation`
-/

set_option linter.unusedSectionVars false

namespace Verif

namespace Oper

variable {R : Type} [CommSemiring R] [Star R]

theorem indexIn_ok {l : List Nat} {i : Nat} (h : i ∈ l) : indexIn l i = .ok (l.idxOf i) := by
  unfold indexIn; rw [if_pos h]

/-- The position of the edge for the output `i` (converter.py:49-53). -/
def posOut (cs os : List Nat) (i : Nat) : Nat := if i ∈ cs then cs.idxOf i else cs.length + os.idxOf i

/-- The position of the edge for the input `i` (converter.py:54-58). -/
def posIn (cs os is : List Nat) (i : Nat) : Nat := if i ∈ cs then cs.idxOf i else cs.length + os.length + is.idxOf i

theorem getD_idxOf {l : List Nat} {i : Nat} (h : i ∈ l) (u : Nat → Nat) (pre post : List Nat) :
    (pre ++ l.map u ++ post)[pre.length + l.idxOf i]?.getD 0 = u i := by
  have h' := List.idxOf_lt_length_iff.2 h
  rw [List.append_assoc, List.getElem?_append_right (by omega), Nat.add_sub_cancel_left,
    List.getElem?_append_left (by simpa using h'), List.getElem?_map, List.getElem?_eq_getElem h', List.getElem_idxOf]
  rfl

/-- The dimensions of the data of a `ControlledOperation`. -/
def ctrlRank (s : List (List Letter)) : Nat :=
  (ctrlPlaces s).length + ((outPlaces s).filter (· ∉ ctrlPlaces s)).length + ((inPlaces s).filter (· ∉ ctrlPlaces s)).length

theorem convertCtrl_open {data : TVal R} {s : List (List Letter)} (hw : ∀ w ∈ s, CtrlWord w)
    (hs : data.shape = some (List.replicate (ctrlRank s) (some 2))) (hwhole : TVal.Whole data) :
    ∃ t, convertCtrl data s = .ok t ∧
      t.shape = some (List.replicate ((outPlaces s).length + (inPlaces s).length) (some 2)) ∧ TVal.Whole t ∧
      (∀ idx, Bits idx ((outPlaces s).length + (inPlaces s).length) → t.tot idx = blockMat data.tot s idx) ∧
      ∃ tn, t = .ofTN tn ∧ ∀ x ∈ tn.edges.keys, x ∈ tn.openE := by
  unfold ctrlRank at hs
  rw [replicate_some] at hs
  set cs := ctrlPlaces s with hcs
  set os := (outPlaces s).filter (· ∉ cs) with hos
  set is := (inPlaces s).filter (· ∉ cs) with his
  set S := List.replicate (cs.length + os.length + is.length) 2 with hS
  have hSl : S.length = cs.length + os.length + is.length := by simp [hS]
  obtain ⟨tn, h1, h2, h3, -⟩ := oneNode (τ := TVal R) (o := false) (i := .str "TC") (t := data) hs
  have hcsn : cs.Nodup := places_nodup _ _
  have hosn : os.Nodup := (places_nodup _ _).filter _
  have hisn : is.Nodup := (places_nodup _ _).filter _
  have hmo : ∀ i ∈ outPlaces s, i ∉ cs → i ∈ os := fun i hi hc => List.mem_filter.2 ⟨hi, by simpa using hc⟩
  have hmi : ∀ i ∈ inPlaces s, i ∉ cs → i ∈ is := fun i hi hc => List.mem_filter.2 ⟨hi, by simpa using hc⟩
  have em1 : (outPlaces s).mapM (fun i => if i ∈ cs then indexIn cs i else (indexIn os i).map fun k => cs.length + k) =
      .ok ((outPlaces s).map (posOut cs os)) := by
    refine mapM_ok fun i hi => ?_
    unfold posOut
    split
    · next h => exact indexIn_ok h
    · next h => rw [indexIn_ok (hmo i hi h)]; rfl
  have em2 : (inPlaces s).mapM (fun i => if i ∈ cs then indexIn cs i else
      (indexIn is i).map fun k => cs.length + os.length + k) = .ok ((inPlaces s).map (posIn cs os is)) := by
    refine mapM_ok fun i hi => ?_
    unfold posIn
    split
    · next h => exact indexIn_ok h
    · next h => rw [indexIn_ok (hmi i hi h)]; rfl
  set op := (outPlaces s).map (posOut cs os) ++ (inPlaces s).map (posIn cs os is) with hop
  have hlt : ∀ k ∈ op, k < S.length := by
    intro k hk
    rw [hSl]
    rcases List.mem_append.1 hk with hk | hk
    · obtain ⟨i, hi, rfl⟩ := List.mem_map.1 hk
      unfold posOut
      split
      · next h => have := List.idxOf_lt_length_iff.2 h; omega
      · next h => have := List.idxOf_lt_length_iff.2 (hmo i hi h); omega
    · obtain ⟨i, hi, rfl⟩ := List.mem_map.1 hk
      unfold posIn
      split
      · next h => have := List.idxOf_lt_length_iff.2 h; omega
      · next h => have := List.idxOf_lt_length_iff.2 (hmi i hi h); omega
  have hcov : ∀ k, k < S.length → k ∈ op := by
    intro k hk
    rw [hSl] at hk
    by_cases k1 : k < cs.length
    · refine List.mem_append_left _ (List.mem_map.2 ⟨cs[k], (ctrlPlaces_sub (List.getElem_mem k1)).1, ?_⟩)
      unfold posOut
      rw [if_pos (List.getElem_mem k1), hcsn.idxOf_getElem]
    · by_cases k2 : k < cs.length + os.length
      · have k3 : k - cs.length < os.length := by omega
        have hm := List.mem_filter.1 (List.getElem_mem k3)
        refine List.mem_append_left _ (List.mem_map.2 ⟨os[k - cs.length], hm.1, ?_⟩)
        unfold posOut
        rw [if_neg (by simpa using hm.2), hosn.idxOf_getElem]; omega
      · have k3 : k - (cs.length + os.length) < is.length := by omega
        have hm := List.mem_filter.1 (List.getElem_mem k3)
        refine List.mem_append_right _ (List.mem_map.2 ⟨is[k - (cs.length + os.length)], hm.1, ?_⟩)
        unfold posIn
        rw [if_neg (by simpa using hm.2), hisn.idxOf_getElem]; omega
  have hd : HasDims { tn with openE := op.map fun k : Nat => Nm.int k } S := h2
  refine ⟨.ofTN { tn with openE := op.map fun k : Nat => Nm.int k }, ?_, ?_, ?_, fun z hz => ?_, _, rfl, fun x hx => ?_⟩
  · unfold convertCtrl
    rw [addNode_named, h1]
    dsimp only
    rw [indicesWith_endsOut, indicesWith_startsIn, indicesWith_isC, indicesWith_endsO hw, indicesWith_startsI hw]
    simp only [← hcs, ← hos, ← his]
    rw [em1, em2]
  · rw [TVal.shape_range hd rfl hlt]
    congr 1
    rw [List.map_map]
    have : ∀ k ∈ op, (some ∘ fun k => S[k]?.getD 0) k = some 2 := fun k hk => by
      have := hlt k hk
      simp only [Function.comp_apply, hS] at this ⊢
      rw [List.getElem?_replicate, if_pos (by simpa using this)]; rfl
    rw [List.map_congr_left this, List.map_const', hop]
    simp
  · show TVal.Whole (.net tn.nodes _ _ _ _)
    rw [TVal.Whole, h3, TVal.WholeNodes, TVal.WholeNodes]
    exact ⟨hwhole, trivial⟩
  · obtain ⟨hb1, hb2⟩ := hz.split
    set u := readAt (outPlaces s) z with hu
    set v := readAt (inPlaces s) (z.drop (outPlaces s).length) with hv
    have ez : z = (outPlaces s).map u ++ (inPlaces s).map v := by
      rw [hu, hv, map_readAt (ks := outPlaces s) (places_nodup _ _) (by rw [hz.1]; omega),
        map_readAt (ks := inPlaces s) (places_nodup _ _) (by rw [hb2.1]),
        List.take_of_length_le (l := z.drop _) (by rw [hb2.1]), List.take_append_drop]
    have hub : ∀ k, u k < 2 := readAt_bits hz.2
    have hvb : ∀ k, v k < 2 := readAt_bits hb2.2
    have eb : blockMat data.tot s z = if ∀ k ∈ cs, u k = v k then data.tot (cs.map u ++ os.map u ++ is.map v) else 0 := rfl
    rw [eb, TVal.tot_ofTN]
    split
    · next hc =>
      set x := cs.map u ++ os.map u ++ is.map v with hx
      have hxr : InRange S x := by
        rw [hS]
        refine Bits.inRange ⟨by simp [hx, Nat.add_assoc], fun b hb => ?_⟩
        rw [hx, List.mem_append, List.mem_append] at hb
        rcases hb with (hb | hb) | hb <;> obtain ⟨k, -, rfl⟩ := List.mem_map.1 hb
        · exact hub k
        · exact hub k
        · exact hvb k
      have ex : z = op.map fun k => x[k]?.getD 0 := by
        rw [hop, List.map_append, List.map_map, List.map_map]
        conv_lhs => rw [ez]
        congr 1
        · refine List.map_congr_left fun i hi => ?_
          simp only [Function.comp_apply, posOut]
          split
          · next h => have := getD_idxOf h u [] (os.map u ++ is.map v); simpa [hx] using this.symm
          · next h =>
            have := getD_idxOf (hmo i hi h) u (cs.map u) (is.map v)
            rw [List.length_map] at this
            exact this.symm
        · refine List.map_congr_left fun i hi => ?_
          simp only [Function.comp_apply, posIn]
          split
          · next h =>
            have := getD_idxOf h u [] (os.map u ++ is.map v)
            rw [← hc i h]
            simpa [hx] using this.symm
          · next h =>
            have := getD_idxOf (hmi i hi h) v (cs.map u ++ os.map u) []
            rw [List.length_append, List.length_map, List.length_map, List.append_nil] at this
            exact this.symm
      rw [ex, TVal.open_at (tn := { tn with openE := op.map fun k : Nat => Nm.int k })
        (show tn.edges.keys.Nodup from TVal.oneNode_nodup h1) hd rfl hcov hlt
        (fs := [⟨rangeLegs S.length, data.tot⟩]) (by unfold TN.factors; rw [h3]; rfl) (by simp) hxr]
      have e2 : (rangeLegs S.length).map (listAsg x) = x := by
        rw [← hxr.length_eq, rangeLegs_map_full]
      simp [prodAt, Factor.at, e2]
    · next hc =>
      refine TVal.open_none fun a ha => hc fun k hk => ?_
      change (op.map fun k : Nat => Nm.int k).map a = z at ha
      rw [hop, ez, List.map_append, List.map_append, List.map_map, List.map_map, List.map_map, List.map_map] at ha
      obtain ⟨a1, a2⟩ := List.append_inj ha (by simp)
      have b1 := List.map_inj_left.1 a1 k (ctrlPlaces_sub hk).1
      have b2 := List.map_inj_left.1 a2 k (ctrlPlaces_sub hk).2
      simp only [Function.comp_apply, posOut, posIn] at b1 b2
      rw [if_pos hk] at b1 b2
      rw [← b1, ← b2]
  · obtain ⟨k, hk, rfl⟩ := mem_rangeLegs.1 ((h2.1 x).1 hx)
    exact List.mem_map.2 ⟨k, hcov k hk, rfl⟩

theorem convertCtrl_spec {data : TVal R} {s : List (List Letter)} (hw : ∀ w ∈ s, CtrlWord w)
    (hs : data.shape = some (List.replicate (ctrlRank s) (some 2))) (hwhole : TVal.Whole data) :
    ∃ t, convertCtrl data s = .ok t ∧
      t.shape = some (List.replicate ((outPlaces s).length + (inPlaces s).length) (some 2)) ∧ TVal.Whole t ∧
      ∀ idx, Bits idx ((outPlaces s).length + (inPlaces s).length) → t.tot idx = blockMat data.tot s idx := by
  obtain ⟨t, h1, h2, h3, h4, -⟩ := convertCtrl_open hw hs hwhole
  exact ⟨t, h1, h2, h3, h4⟩

end Oper

end Verif
