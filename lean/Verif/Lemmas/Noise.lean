import Verif.Lemmas.Measure
import Verif.Lemmas.Levels
import Verif.Spec.Noise
/-!
# Circuits with noise behind every operation
-/

set_option linter.unusedSectionVars false

namespace Verif

/-! ### The order of the loops is the sorted order -/

theorem sorted_by_filters {β : Type} {f : β → Int} : ∀ {l l' : List β}, (l.Pairwise fun a b => f a ≤ f b) →
    (l'.Pairwise fun a b => f a ≤ f b) → (∀ t, l.filter (fun a => f a = t) = l'.filter fun a => f a = t) → l = l'
  | [], [], _, _, _ => rfl
  | [], b :: l', _, _, h => by have := h (f b); simp at this
  | a :: l, [], _, _, h => by have := h (f a); simp at this
  | a :: l, b :: l', h1, h2, h => by
    rw [List.pairwise_cons] at h1 h2
    have m1 : a ∈ (b :: l').filter fun c => f c = f a := by rw [← h]; simp
    have m2 : b ∈ (a :: l).filter fun c => f c = f b := by rw [h]; simp
    have e1 : f b ≤ f a := by
      rcases List.mem_cons.1 (List.mem_filter.1 m1).1 with e | e
      · exact e ▸ le_refl _
      · exact h2.1 a e
    have e2 : f a ≤ f b := by
      rcases List.mem_cons.1 (List.mem_filter.1 m2).1 with e | e
      · exact e ▸ le_refl _
      · exact h1.1 b e
    have e : f a = f b := le_antisymm e2 e1
    have hh := h (f a)
    rw [List.filter_cons_of_pos (by simp), List.filter_cons_of_pos (by simp [e])] at hh
    obtain ⟨rfl, hh⟩ := List.cons.inj hh
    rw [sorted_by_filters h1.2 h2.2 fun t => ?_]
    have := h t
    by_cases ht : f a = t
    · rw [List.filter_cons_of_pos (by simp [ht]), List.filter_cons_of_pos (by simp [ht])] at this
      exact (List.cons.inj this).2
    · rwa [List.filter_cons_of_neg (by simp [ht]), List.filter_cons_of_neg (by simp [ht])] at this

theorem orderedInsert_filter {β : Type} (f : β → Int) (a : β) (t : Int) : ∀ l : List β,
    (l.orderedInsert (fun a b => f a ≤ f b) a).filter (fun b => f b = t) = (a :: l).filter fun b => f b = t
  | [] => rfl
  | b :: l => by
    rw [List.orderedInsert]
    split
    · rfl
    · rename_i h
      rw [List.filter_cons, orderedInsert_filter f a t l, List.filter_cons, List.filter_cons, List.filter_cons]
      by_cases h1 : f b = t <;> by_cases h2 : f a = t <;> simp [h1, h2]
      omega

theorem insertionSort_filter {β : Type} (f : β → Int) (t : Int) : ∀ l : List β,
    (l.insertionSort fun a b => f a ≤ f b).filter (fun b => f b = t) = l.filter fun b => f b = t
  | [] => rfl
  | a :: l => by
    rw [List.insertionSort_cons, orderedInsert_filter, List.filter_cons, List.filter_cons, insertionSort_filter f t l]

theorem flatMap_filter {β : Type} (f : β → Int) (l : List β) (t : Int) : ∀ {ts : List Int}, ts.Nodup →
    (ts.flatMap fun t' => l.filter fun a => f a = t').filter (fun a => f a = t) = if t ∈ ts then l.filter fun a => f a = t else []
  | [], _ => rfl
  | t' :: ts, h => by
    rw [List.nodup_cons] at h
    rw [List.flatMap_cons, List.filter_append, flatMap_filter f l t h.2, List.filter_filter]
    by_cases e : t = t'
    · subst e
      rw [if_neg h.1, if_pos (by simp), List.append_nil]
      exact List.filter_congr fun a _ => by simp
    · have : (l.filter fun a => decide (f a = t) && decide (f a = t')) = [] := by
        rw [List.filter_eq_nil_iff]
        intro a _
        simp only [Bool.and_eq_true, decide_eq_true_eq, not_and]
        intro h1 h2
        exact e (h1.symm.trans h2)
      rw [this, List.nil_append]
      exact if_congr (by simp [e]) rfl rfl

theorem Circ.inOrder_timeSorted {α : Type} (c : Circ α) : c.inOrder = timeSorted c := by
  refine sorted_by_filters (f := fun p : Nm × OpRec α => p.2.time) (Circ.inOrder_sorted c) (Circ.timeSorted_sorted c) fun t => ?_
  rw [timeSorted, insertionSort_filter (fun p : Nm × OpRec α => p.2.time), Circ.inOrder_eq,
    flatMap_filter (fun p : Nm × OpRec α => p.2.time) c t (by
      unfold Circ.times
      exact (List.perm_insertionSort _ _).nodup_iff.2 (List.nodup_dedup _))]
  split
  · rfl
  · rename_i h
    symm
    rw [List.filter_eq_nil_iff]
    intro p hp e
    refine h ?_
    unfold Circ.times
    rw [List.mem_insertionSort, List.mem_dedup]
    exact List.mem_map.2 ⟨p, hp, by simpa using e⟩

/-! ### Words with the same ends -/

/-- The two words begin and end alike, and if the first can be connected, so can the second. -/
structure Like (w w' : List Port) : Prop where
  head : w'.head? = w.head?
  last : w'.getLast? = w.getLast?
  chain : Connectable w → Connectable w'

theorem Like.refl (w : List Port) : Like w w := ⟨rfl, rfl, id⟩

theorem Like.nil_iff {w w' : List Port} (h : Like w w') : w' = [] ↔ w = [] := by
  rw [← List.head?_eq_none_iff, h.head, List.head?_eq_none_iff]

theorem Like.append {w w' v v' : List Port} (h : Like w w') (h' : Like v v') : Like (w ++ v) (w' ++ v') := by
  refine ⟨?_, ?_, fun hc => ?_⟩
  · rw [List.head?_append, List.head?_append, h.head, h'.head]
  · rw [List.getLast?_append, List.getLast?_append, h.last, h'.last]
  · unfold Connectable at hc
    rw [List.isChain_append] at hc
    refine List.isChain_append.2 ⟨h.chain hc.1, h'.chain hc.2.1, ?_⟩
    rw [h.last, h'.head]
    exact hc.2.2

theorem Like.flatMap {β : Type} {f g : β → List Port} : ∀ {l : List β}, (∀ a ∈ l, Like (f a) (g a)) → Like (l.flatMap f) (l.flatMap g)
  | [], _ => Like.refl _
  | a :: l, h => by
    rw [List.flatMap_cons, List.flatMap_cons]
    exact (h a (by simp)).append (Like.flatMap fun b hb => h b (by simp [hb]))

theorem like_ends {w w' : List Port} (hh : w'.head? = w.head?) (hl : w'.getLast? = w.getLast?) :
    Like w ((endsWord w').flatMap Letter.ports) := by
  unfold endsWord
  rw [hh, hl]
  cases w with
  | nil => exact Like.refl _
  | cons a w =>
    have hb : ∃ b, (a :: w).getLast? = some b := by
      cases h : (a :: w).getLast? with
      | none => simp at h
      | some b => exact ⟨b, rfl⟩
    obtain ⟨b, hb⟩ := hb
    refine ⟨?_, ?_, fun _ => ?_⟩ <;> rw [hb, List.head?_cons] <;> cases a <;> cases b <;> first | rfl | (unfold Connectable; decide)

theorem ends_chain (w : List Port) : Connectable ((endsWord w).flatMap Letter.ports) := by
  cases w with
  | nil => unfold Connectable; exact List.isChain_nil
  | cons a w =>
    unfold endsWord
    cases (a :: w).getLast? with
    | none => exact List.isChain_nil
    | some b => rw [List.head?_cons]; cases a <;> cases b <;> (unfold Connectable; decide)

namespace Circ

variable {α : Type} {sh : ShapeFn α}

/-- The operations `l` on the qubits 0, …, m - 1, one after the other. -/
theorem extends_valid {l c' : Circ α} (he : Extends sh [] l c') (hc : ∀ q, Connectable (wireWord sh q l)) :
    (∃ s, c'.shape sh = .ok s) ∧ ∀ q, wireWord sh q (timeSorted c') = wireWord sh q l :=
  ⟨he.shape ⟨[], rfl⟩ (fun p hp => by cases hp) hc, fun q => he.word q⟩

theorem extends_trans {a b c l l' : Circ α} (h : Extends sh a l b) (h' : Extends sh b l' c) : Extends sh a (l ++ l') c := by
  obtain ⟨d, rfl, h2, h3, h4⟩ := h.split
  obtain ⟨d', rfl, h2', h3', h4'⟩ := h'.split
  refine ⟨?_, h'.keys, h'.fit, h'.stamped, d ++ d', by simp, by simp only [bare, List.map_append] at *; rw [h2, h2'], fun p hp p' hp' => ?_, ?_⟩
  · rw [appendAll_append, h.app]; exact h'.app
  · rcases List.mem_append.1 hp' with hp' | hp'
    · exact h3 p hp p' hp'
    · exact h3' p (by simp [hp]) p' hp'
  · exact List.pairwise_append.2 ⟨h4, h4', fun p hp p' hp' => h3' p (by simp [hp]) p' hp'⟩

end Circ

namespace Oper

variable {R : Type} [CommSemiring R] [StarRing R] {ctr : TVal R → Except Err (Arr R)}

/-- If the operation is a circuit, its qubits are named 0, 1, …. -/
def Named : Oper R → Prop
  | .circ d => ∃ N, qubitsOf d = rangeQubits 0 N
  | _ => True

theorem rangeQubits_nodup (m : Nat) : (rangeQubits 0 m).Nodup := by
  rw [rangeQubits_eq]
  exact List.nodup_range.map Int.ofNat_injective

theorem rangeQubits_length (m : Nat) : (rangeQubits 0 m).length = m := by simp [rangeQubits]

/-- The operations `L` on the qubits 0, 1, … do, one after the other, what the operation `op` does. -/
structure Runs (ctr : TVal R → Except Err (Arr R)) (k n : Nat) (op : Oper R) (s : List (List Letter)) (L : Circ (Oper R)) : Prop where
  app : orOper (shapes ctr n) (.circ []) op = Circ.appendAll (shapes ctr n) [] L
  fit : Fitting (shapes ctr n) L
  dens : ∀ p ∈ L, DensBuilt ctr k n p.2.op
  qubits : ∀ q, (∃ p ∈ L, q ∈ p.2.qubits) ↔ q ∈ rangeQubits 0 s.length
  chain : ∀ q, Connectable (wireWord (shapes ctr n) q L)
  head : ∀ q, (wireWord (shapes ctr n) q L).head? = (portsAt s (rangeQubits 0 s.length) q).head?
  last : ∀ q, (wireWord (shapes ctr n) q L).getLast? = (portsAt s (rangeQubits 0 s.length) q).getLast?
  acts : ∀ π : Int → Int, Function.Injective π →
    Unfolds (Act.twice ⟨densMatrix ctr n op, inQubits s ((rangeQubits 0 s.length).map π), outQubits s ((rangeQubits 0 s.length).map π)⟩)
      (twice (freshQubits s ((rangeQubits 0 s.length).map π)))
      (((L.map fun p => actOf (shapes ctr n) (densMatrix ctr n) p.2).map (Act.rename π)).map Act.twice)

theorem runs_self {k n : Nat} {op : Oper R} {s : List (List Letter)} (hd : DensBuilt ctr k n op) (hs : (iface ctr n).shape op = .ok s)
    (hc : ∀ q, Connectable (portsAt s (rangeQubits 0 s.length) q))
    (ho : orOper (shapes ctr n) (.circ []) op = appendOper (shapes ctr n) [] op) : Runs ctr k n op s [entry op (rangeQubits 0 s.length)] := by
  have hsd : shapeD (shapes ctr n) op = s := by
    show shapeD (iface ctr n).shape op = s
    simp [shapeD, hs]
  have hw : ∀ q, wireWord (shapes ctr n) q [entry op (rangeQubits 0 s.length)] = portsAt s (rangeQubits 0 s.length) q := fun q => by
    show portsAt (shapeD (shapes ctr n) op) _ q ++ [] = _
    rw [hsd, List.append_nil]
    rfl
  refine ⟨?_, fun p hp => ?_, fun p hp => ?_, fun q => ?_, fun q => ?_, fun q => ?_, fun q => ?_, fun π hπ => ?_⟩
  · rw [ho, appendOper]
    show (match (iface ctr n).shape op with | .error e => _ | .ok s => _) = _
    rw [hs, entry, Circ.appendAll_one]
  · obtain rfl := List.mem_singleton.1 hp
    exact ⟨s, hs, by simp [entry, rangeQubits], rangeQubits_nodup _⟩
  · obtain rfl := List.mem_singleton.1 hp
    exact hd
  · simp [entry]
  · rw [hw]; exact hc q
  · rw [hw]
  · rw [hw]
  · rw [inQubits_map hπ, outQubits_map hπ]
    have : actOf (shapes ctr n) (densMatrix ctr n) (entry op (rangeQubits 0 s.length)).2 =
        ⟨densMatrix ctr n op, inQubits s (rangeQubits 0 s.length), outQubits s (rangeQubits 0 s.length)⟩ := by
      show Act.mk _ (inQubits (shapeD (shapes ctr n) op) _) (outQubits (shapeD (shapes ctr n) op) _) = _
      rw [hsd]
      rfl
    rw [List.map_singleton, this]
    exact single_unfolds _ _

theorem runs_circ {k n : Nat} {d : Circ (Oper R)} {s : List (List Letter)} (hd : DensBuilt ctr k (n + 1) (.circ d))
    (hs : Circ.shape (iface ctr n).shape d = .ok s) (hN : Named (.circ d)) : Runs ctr k (n + 1) (.circ d) s (timeSorted d) := by
  have hd' := hd
  rw [DensBuilt] at hd'
  obtain ⟨-, -, h3⟩ := hd'
  have hf : Fitting (shapes ctr n) d := fun p hp => by
    obtain ⟨-, h2, s, h4, h5⟩ := h3 p hp
    exact ⟨s, h4, h5, h2⟩
  have hs : Circ.shape (shapes ctr n) d = .ok s := hs
  have hmem : ∀ p ∈ timeSorted d, p ∈ d := fun p hp => (Circ.timeSorted_perm d).mem_iff.1 hp
  have hsh : ∀ p ∈ timeSorted d, shapes ctr (n + 1) p.2.op = shapes ctr n p.2.op := fun p hp => (dens_succ n (h3 p (hmem p hp)).1).2.1
  have hq : qubitsOf d = rangeQubits 0 s.length := by
    obtain ⟨N, hN⟩ := hN
    rw [Circ.shape_length hf hs, hN, rangeQubits_length]
  have hw : ∀ q, wireWord (shapes ctr (n + 1)) q (timeSorted d) = wireWord (shapes ctr n) q (timeSorted d) := fun q =>
    Circ.wireWord_congr hsh q
  have hp : ∀ q, portsAt s (rangeQubits 0 s.length) q = (endsWord (wireWord (shapes ctr n) q (timeSorted d))).flatMap Letter.ports := fun q =>
    Circ.outer_ports hf hs (π := id) Function.injective_id (by rw [List.map_id]; exact hq) q
  refine ⟨?_, fun p hp => ?_, fun p hp => ?_, fun q => ?_, fun q => ?_, fun q => ?_, fun q => ?_, fun π hπ => ?_⟩
  · show Circ.orCirc _ [] d = _
    rw [← Circ.inOrder_timeSorted]
    rfl
  · obtain ⟨s', k1, k2⟩ := hf p (hmem p hp)
    exact ⟨s', (hsh p hp).trans k1, k2⟩
  · exact (dens_succ n (h3 p (hmem p hp)).1).1
  · rw [← hq, Circ.mem_qubitsOf]
    exact exists_congr fun p => and_congr_left fun _ => (Circ.timeSorted_perm d).mem_iff
  · rw [hw]; exact (Circ.wired_sorted hf hs).chain q
  · rw [hw, hp, (like_ends rfl rfl).head]
  · rw [hw, hp, (like_ends rfl rfl).last]
  · have key := Circ.unfolds_circDens (ten := densMatrix ctr n) hf hs hπ (qs := (rangeQubits 0 s.length).map π) (by rw [hq])
      (S := fun op qs => [⟨densMatrix ctr n op, inQubits (shapeD (shapes ctr n) op) qs, outQubits (shapeD (shapes ctr n) op) qs⟩])
      fun p _ qs' _ _ => single_unfolds _ _
    have e : ((timeSorted d).map fun p => actOf (shapes ctr (n + 1)) (densMatrix ctr (n + 1)) p.2).map (Act.rename π) =
        (Circ.renamed π (timeSorted d)).flatMap fun p => [⟨densMatrix ctr n p.2.op, inQubits (shapeD (shapes ctr n) p.2.op) p.2.qubits,
          outQubits (shapeD (shapes ctr n) p.2.op) p.2.qubits⟩] := by
      rw [Circ.acts_congr hsh fun p hp => (dens_succ n (h3 p (hmem p hp)).1).2.2, ← Circ.renamed_acts hπ, List.map_eq_flatMap]
      rfl
    rw [e]
    exact key

/-- What `Circuit() | op` contains. -/
theorem exists_runs {k n : Nat} {op : Oper R} {s : List (List Letter)} (hd : DensBuilt ctr k n op) (hs : (iface ctr n).shape op = .ok s)
    (hc : ∀ q, Connectable (portsAt s (rangeQubits 0 s.length) q)) (hN : Named op) : ∃ L, Runs ctr k n op s L := by
  cases op with
  | circ d =>
    cases n with
    | zero => exact absurd hd (by simp [DensBuilt])
    | succ n => exact ⟨_, runs_circ hd hs hN⟩
  | _ => exact ⟨_, runs_self hd hs hc rfl⟩

theorem noiseLoop_eq (sh : Circ.ShapeFn (Oper R)) (noise : Oper R) : ∀ (is : List Nat) (c : Circ (Oper R)),
    noiseLoop sh noise is c = Circ.appendAll sh c ((is.map fun k : Nat => (k : Int)).map fun i => entry noise [i])
  | [], c => rfl
  | i :: is, c => by
    rw [noiseLoop, List.map_cons, List.map_cons]
    show _ = Circ.appendAll sh c ((Nm.nil, ⟨noise, 0, [(i : Int)]⟩) :: _)
    rw [Circ.appendAll]
    cases c.append sh noise [(i : Int)] with
    | error e => rfl
    | ok c' => exact noiseLoop_eq sh noise is c'

theorem word_each {sh : Circ.ShapeFn (Oper R)} {op : Oper R} {l : List Letter} (hs : shapeD sh op = [l]) : ∀ {Q : List Int}, Q.Nodup → ∀ q',
    wireWord sh q' (Q.map fun q => entry op [q]) = if q' ∈ Q then l.flatMap Letter.ports else []
  | [], _, _ => rfl
  | q :: Q, hn, q' => by
    obtain ⟨h1, h2⟩ := List.nodup_cons.1 hn
    rw [List.map_cons, Circ.wireWord_cons, word_each hs h2]
    show portsAt (shapeD sh op) [q] q' ++ _ = _
    rw [hs]
    by_cases e : q' = q
    · subst e
      rw [portsAt_one, if_neg h1, if_pos (by simp), List.append_nil]
    · rw [portsAt_other _ e, List.nil_append]
      exact if_congr (by simp [e]) rfl rfl

theorem like_outs {s s' : List (List Letter)} {qs : List Int} (h : ∀ q, Like (portsAt s qs q) (portsAt s' qs q)) :
    outQubits s' qs = outQubits s qs := List.filter_congr fun q _ => by rw [(h q).last]

theorem like_ins {s s' : List (List Letter)} {qs : List Int} (h : ∀ q, Like (portsAt s qs q) (portsAt s' qs q)) :
    inQubits s' qs = inQubits s qs := List.filter_congr fun q _ => by rw [(h q).head]

theorem like_fresh {s s' : List (List Letter)} {qs : List Int} (h : ∀ q, Like (portsAt s qs q) (portsAt s' qs q)) :
    freshQubits s' qs = freshQubits s qs := List.filter_congr fun q _ => by rw [(h q).head]

/-- An operation with noise behind it: a valid circuit with the same wires, which acts as the operation followed by the
channel on each output. -/
theorem noisy_spec {k n : Nat} {noise op : Oper R} {s : List (List Letter)} {l : List Letter} (hd : DensBuilt ctr k n op)
    (hs : (iface ctr n).shape op = .ok s) (hc : ∀ q, Connectable (portsAt s (rangeQubits 0 s.length) q)) (hN : Named op)
    (hnd : DensBuilt ctr k n noise) (hns : (iface ctr n).shape noise = .ok [l]) (hnl : l.flatMap Letter.ports = [.inp, .out]) :
    ∃ d s', noisyOp (shapes ctr n) noise op = .ok d ∧ DensBuilt ctr k (n + 1) (.circ d) ∧ (iface ctr (n + 1)).shape (.circ d) = .ok s' ∧
      s'.length = s.length ∧ ∀ qs : List Int, qs.Nodup → qs.length = s.length → (∀ q, Like (portsAt s qs q) (portsAt s' qs q)) ∧
        Unfolds (Act.twice ⟨densMatrix ctr (n + 1) (.circ d), inQubits s' qs, outQubits s' qs⟩) (twice (freshQubits s' qs))
          ((noisySeq (densMatrix ctr n noise) [⟨densMatrix ctr n op, inQubits s qs, outQubits s qs⟩]).map Act.twice) := by
  obtain ⟨L, hL⟩ := exists_runs hd hs hc hN
  have hnsd : shapeD (shapes ctr n) noise = [l] := by
    show shapeD (iface ctr n).shape noise = [l]
    simp [shapeD, hns]
  obtain ⟨c0, he0⟩ := Circ.extends_all L [] (by simp [Dict.keys]) (fun p hp => by cases hp) (fun p hp => by intro h; cases h) hL.fit
  obtain ⟨⟨s0, hs0⟩, hw0⟩ := Circ.extends_valid he0 hL.chain
  have hq0 : qubitsOf c0 = rangeQubits 0 s.length := by
    refine Circ.sorted_unique (Circ.qubitsOf_sorted _) ?_ fun q => ?_
    · rw [rangeQubits_eq, List.pairwise_map]
      exact List.pairwise_lt_range.imp fun h => by exact_mod_cast h
    · rw [he0.qubits, hL.qubits]
      simp [qubitsOf]
  have ho := outPlaces_named he0.fit hs0 hq0
  have hQn := Circ.nodup_of_sorted (Circ.circOuts_sorted (shapes ctr n) c0)
  have hQ : circOuts (shapes ctr n) c0 = outQubits s (rangeQubits 0 s.length) := by
    unfold circOuts outQubits
    rw [hq0]
    exact List.filter_congr fun q _ => by rw [hw0, hL.last]
  have hwN := word_each hnsd hQn
  obtain ⟨d, he1⟩ := Circ.extends_all ((circOuts (shapes ctr n) c0).map fun q => entry noise [q]) c0 he0.keys he0.fit he0.stamped
    (fun p hp => by
      obtain ⟨q, hq, rfl⟩ := List.mem_map.1 hp
      exact ⟨[l], hns, rfl, by simp [entry]⟩)
  have he := Circ.extends_trans he0 he1
  have hword : ∀ q, wireWord (shapes ctr n) q (L ++ (circOuts (shapes ctr n) c0).map fun q => entry noise [q]) =
      wireWord (shapes ctr n) q L ++ if q ∈ circOuts (shapes ctr n) c0 then [.inp, .out] else [] := fun q => by
    rw [← hnl, ← hwN q]
    exact List.flatMap_append
  have hlast : ∀ q, q ∈ circOuts (shapes ctr n) c0 ↔ (wireWord (shapes ctr n) q L).getLast? = some .out := fun q => by
    rw [Circ.mem_circOuts, hw0]
  have hchain : ∀ q, Connectable (wireWord (shapes ctr n) q (L ++ (circOuts (shapes ctr n) c0).map fun q => entry noise [q])) := fun q => by
    rw [hword]
    split
    · rename_i h
      refine isChain_append (hL.chain q) (by unfold Connectable; decide) fun a ha e => ?_
      rw [(hlast q).1 h] at ha
      cases ha; cases e
    · rw [List.append_nil]; exact hL.chain q
  obtain ⟨⟨s', hs'⟩, hw'⟩ := Circ.extends_valid he hchain
  have hq' : qubitsOf d = rangeQubits 0 s.length := by
    rw [← hq0]
    refine qubitsOf_congr fun q => ?_
    rw [he1.qubits]
    refine ⟨fun h => h.elim id ?_, Or.inl⟩
    rintro ⟨p, hp, hq⟩
    obtain ⟨q', hq', rfl⟩ := List.mem_map.1 hp
    have : q = q' := by simpa [entry] using hq
    subst this
    unfold circOuts at hq'
    exact (List.mem_filter.1 hq').1
  have hlen : s'.length = s.length := by rw [Circ.shape_length he.fit hs', hq', rangeQubits_length]
  refine ⟨d, s', ?_, ?_, hs', hlen, fun qs hqs hl => ?_⟩
  · unfold noisyOp
    rw [hL.app, he0.app]
    dsimp only
    rw [hs0]
    dsimp only
    rw [noiseLoop_eq, indicesWith_endsOut, ho]
    exact he1.app
  · rw [DensBuilt]
    refine ⟨he.keys, ⟨s', hs'⟩, fun p hp => ?_⟩
    obtain ⟨s2, k1, k2, k3⟩ := he.fit p hp
    refine ⟨?_, k3, s2, k1, k2⟩
    rcases he.mem hp with hp | ⟨p', hp', e, -⟩
    · cases hp
    · rw [e]
      rcases List.mem_append.1 hp' with hp' | hp'
      · exact hL.dens p' hp'
      · obtain ⟨q, -, rfl⟩ := List.mem_map.1 hp'
        exact hnd
  · obtain ⟨π, hπ, hqs'⟩ := exists_renaming (rangeQubits_nodup s.length) hqs (by rw [rangeQubits_length, hl])
    have hlike : ∀ q, Like (portsAt s qs q) (portsAt s' qs q) := fun q => by
      by_cases hq : q ∈ qs
      · rw [← hqs'] at hq
        obtain ⟨q0, -, rfl⟩ := List.mem_map.1 hq
        rw [Circ.outer_ports he.fit hs' hπ (by rw [hq', hqs']) q0, ← hqs', portsAt_map fun a b h => hπ h, hw', hword]
        refine like_ends ?_ ?_
        · rw [List.head?_append, ← hL.head]
          cases h : wireWord (shapes ctr n) q0 L with
          | nil =>
            rw [if_neg]
            · rfl
            · rw [hlast, h]; simp
          | cons a w => rfl
        · rw [List.getLast?_append, ← hL.last]
          split
          · rename_i h
            rw [(hlast q0).1 h]; rfl
          · rfl
      · rw [portsAt_nil hq, portsAt_nil hq]; exact Like.refl _
    refine ⟨hlike, ?_⟩
    have key := Circ.unfolds_circDens (ten := densMatrix ctr n) he.fit hs' hπ (by rw [hq', hqs'])
      (S := fun op qs => [⟨densMatrix ctr n op, inQubits (shapeD (shapes ctr n) op) qs, outQubits (shapeD (shapes ctr n) op) qs⟩])
      fun p _ qs' _ _ => single_unfolds _ _
    have e : ((Circ.renamed π (timeSorted d)).flatMap fun p => [(⟨densMatrix ctr n p.2.op, inQubits (shapeD (shapes ctr n) p.2.op) p.2.qubits,
          outQubits (shapeD (shapes ctr n) p.2.op) p.2.qubits⟩ : Act R)]) =
        (L.map fun p => actOf (shapes ctr n) (densMatrix ctr n) p.2).map (Act.rename π) ++
          (outQubits s qs).map fun q => ⟨densMatrix ctr n noise, [q], [q]⟩ := by
      have e1 := Circ.renamed_acts (sh := shapes ctr n) hπ (timeSorted d) (densMatrix ctr n)
      rw [List.map_eq_flatMap] at e1
      refine Eq.trans e1 ?_
      have e2 := he.acts (densMatrix ctr n)
      have e3 : (timeSorted ([] : Circ (Oper R))) = [] := rfl
      rw [e3, List.map_nil, List.nil_append] at e2
      rw [e2, List.map_append, List.map_append]
      congr 1
      rw [hQ, ← hqs', outQubits_map hπ, List.map_map, List.map_map, List.map_map]
      refine List.map_congr_left fun q _ => ?_
      show Act.rename π ⟨_, inQubits (shapeD (shapes ctr n) noise) [q], outQubits (shapeD (shapes ctr n) noise) [q]⟩ = _
      rw [hnsd]
      have i1 : inQubits [l] [q] = [q] := by simp [inQubits, portsAt_one, hnl]
      have i2 : outQubits [l] [q] = [q] := by simp [outQubits, portsAt_one, hnl]
      rw [i1, i2]
      rfl
    have key2 := hL.acts π hπ
    rw [hqs'] at key2
    intro P Ψ hΨ hP u hu
    refine Eq.trans (key P Ψ hΨ hP u hu) ?_
    rw [e, noisySeq, List.flatMap_singleton, List.map_append, List.map_cons, evolve_append, evolve]
    exact evolve_good (fun w hw => (key2 P Ψ hΨ (by rwa [like_fresh hlike] at hP) w hw).symm) hu

end Oper

end Verif
