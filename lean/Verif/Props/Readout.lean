import Verif.Model.Readout
import Verif.Props.Density
import Verif.Lemmas.DensWhole
import Verif.Lemmas.Copy
import Verif.Props.Expand
/-!
# C71: the readout of the surface code demo
-/

namespace Verif

theorem Nm.first_ofList (a : Nm) (l : List Nm) : (Nm.ofList (a :: l)).first = .ok a := rfl

theorem Nm.last_ofList : ∀ {l : List Nm} {x : Nm}, l.getLast? = some x → (Nm.ofList l).last = .ok x
  | [], x, h => by simp at h
  | [a], x, h => by simp at h; subst h; rfl
  | a :: b :: l, x, h => by
    rw [List.getLast?_cons_cons] at h
    exact (last_ofList (l := b :: l) h : _)

namespace Qec

variable {τ : Type}

/-- A name that is a tuple beginning with a number. -/
def Timed (n : Nm) : Prop := ∃ (i : Int) (l : List Nm), n = Nm.ofList (.int i :: l)

theorem Timed.comb {a : Nm} (h : Timed a) (n : Nm) : Timed (a.comb n) := by
  obtain ⟨i, l, rfl⟩ := h
  exact ⟨i, l ++ n.tup, by rw [Nm.comb, Nm.tup_ofList]; rfl⟩

theorem Timed.autoName (t : Int) (qs : List Int) : Timed (Circ.autoName t qs) := ⟨t, [_], rfl⟩

theorem fixEdge_nodes (tn : TN τ) (e : Nm) (v : List Nat) (b : Bool) : (tn.fixEdge e v b).1.nodes = tn.nodes := by
  unfold TN.fixEdge
  repeat' split
  all_goals rfl

theorem mergeStep_nodes (m : Nm) (tn : TN τ) (e : Nm) : (TN.mergeStep m tn e).1.nodes = tn.nodes := by
  unfold TN.mergeStep
  split
  · rfl
  · next r _ =>
    have h : (tn.mergeFix m r.fix).1.nodes = tn.nodes := by
      unfold TN.mergeFix
      split
      · exact fixEdge_nodes _ _ _ _
      · rfl
    revert h
    generalize tn.mergeFix m r.fix = x
    obtain ⟨t, o⟩ := x
    intro h
    cases o with
    | error e => exact h
    | ok u =>
      simp only
      split <;> exact h

theorem mergeEdges_keys (tn : TN τ) (es : List Nm) (mt d : Option Nm) : (tn.mergeEdges es mt d).1.nodes.keys = tn.nodes.keys := by
  rcases TN.mergeEdges_start tn es mt d with ⟨er, t, h, -, h2, -⟩ | ⟨m, tn2, -, h2, -, h⟩
  · rw [h, h2]
  · rw [h]
    have h3 : (forLoop (TN.mergeStep m) es tn2).1.nodes = tn2.nodes :=
      forLoop_inv (P := fun t : TN τ => t.nodes = tn2.nodes) (fun s a hs => (mergeStep_nodes m s a).trans hs) es tn2 rfl
    revert h3
    generalize forLoop (TN.mergeStep m) es tn2 = x
    obtain ⟨t, o⟩ := x
    intro h3
    cases o with
    | error e => show t.nodes.keys = _; rw [show t.nodes = tn2.nodes from h3, h2]
    | ok u =>
      have h4 : t.nodes = tn.nodes := h3.trans h2
      simp only
      split <;> simp only [Dict.keys_mapIf, h4]

theorem keys_foldl_put {V : Type} (over : V → V → V) : ∀ (l d : Dict Nm V) {n : Nm},
    n ∈ Dict.keys (l.foldl (fun d p => d.put over p.1 p.2) d) → n ∈ d.keys ∨ n ∈ l.keys
  | [], d, n, h => Or.inl h
  | p :: l, d, n, h => by
    rcases keys_foldl_put over l _ h with h | h
    · have : n = p.1 ∨ n ∈ d.keys := by
        unfold Dict.put at h
        beta_reduce at h
        split at h <;> exact Dict.mem_keys_set.1 h
      rcases this with rfl | h
      · exact Or.inr (by simp [Dict.keys])
      · exact Or.inl h
    · exact Or.inr (List.mem_cons_of_mem _ h)

theorem graft_keys {tn t : TN τ} {n : Nm} (h : n ∈ (tn.graft t).nodes.keys) : n ∈ tn.nodes.keys ∨ n ∈ t.nodes.keys :=
  keys_foldl_put NodeRec.over t.nodes tn.nodes h

theorem addAttr_keys {t : TN τ} {a n : Nm} (h : n ∈ (t.addAttr a).nodes.keys) : ∃ x ∈ t.nodes.keys, n = a.comb x := by
  unfold TN.addAttr at h
  rcases graft_keys h with h | h
  · simp [Dict.keys] at h
  · obtain ⟨p, hp, rfl⟩ := List.mem_map.1 h
    obtain ⟨q, hq, rfl⟩ := List.mem_map.1 hp
    exact ⟨q.1, List.mem_map.2 ⟨q, hq, rfl⟩, rfl⟩

/-- All nodes have names that begin with a number. -/
def AllTimed (tn : TN τ) : Prop := ∀ n ∈ tn.nodes.keys, Timed n

theorem AllTimed.insertNet {G : TN.Glue} {tn t : TN τ} (h : AllTimed tn) (ht : AllTimed t) (legs : List Nm) :
    AllTimed (tn.insertNet G t legs).1 := by
  have hg : AllTimed (tn.graft t) := fun n hn => (graft_keys hn).elim (h n) (ht n)
  unfold TN.insertNet
  split
  · exact hg
  · refine forLoop_inv (P := AllTimed) (fun s a hs => ?_) _ _ hg
    unfold TN.glue1
    split
    · exact hs
    · next m _ =>
      have := mergeEdges_keys s a (some m) none
      revert this
      generalize s.mergeEdges a (some m) none = x
      obtain ⟨t, o⟩ := x
      intro this
      have ht' : AllTimed t := fun n hn => hs n (this ▸ hn)
      cases o <;> exact ht'

theorem AllTimed.expand {R : Type} {G : TN.Glue} (k : Nat) {tn : TN (TVal R)} (h : AllTimed tn) : AllTimed (TVal.expand G k tn).1 := by
  cases k with
  | zero => exact h
  | succ k =>
    rw [TVal.expand]
    have hl : ∀ n ∈ tn.nodes.keys, Timed n := h
    refine forLoop_inv_mem (P := AllTimed) _ (fun s n hn hs => ?_) _ h
    unfold TVal.expandNode
    split
    · exact hs
    · split
      · exact hs
      · exact hs
      · next ns es adj op _ _ =>
        have hp : AllTimed (s.popNode n).1 := by
          unfold TN.popNode
          split
          · exact hs
          · exact fun x hx => hs x (Dict.mem_keys_del.1 hx).1
        revert hp
        generalize s.popNode n = x
        obtain ⟨t1, o⟩ := x
        intro hp
        cases o with
        | error e => exact hp
        | ok pop =>
          simp only
          split
          · exact hp
          · next t _ =>
            refine AllTimed.insertNet hp (fun x hx => ?_) _
            obtain ⟨y, -, rfl⟩ := addAttr_keys hx
            exact (hl n hn).comb y
      · exact hs

theorem densLoop_timed {α R : Type} {I : DensIface α (TVal R)} : ∀ {gs : List (Int × Nat × Nm × OpRec α)} {s s' : Circ.DConv (TVal R)},
    (∀ g ∈ gs, Timed g.2.2.1) → AllTimed s.tn → Circ.densLoop I gs s = .ok s' → AllTimed s'.tn
  | [], s, s', _, hA, h => by rw [Circ.densLoop] at h; cases h; exact hA
  | (t, idx, gate, r) :: gs, s, s', hP, hA, h => by
    rw [Circ.densLoop] at h
    split at h
    · cases h
    · next s1 h1 =>
      refine densLoop_timed (gs := gs) (fun g hg => hP g (by simp [hg])) ?_ h
      unfold Circ.densGate at h1
      split at h1
      · cases h1
      · split at h1
        · cases h1
        · next k1 =>
          split at h1
          · cases h1
          · next k2 =>
            split at h1
            · cases h1
            · split at h1
              · cases h1
              · next k4 =>
                cases h1
                obtain ⟨h0, -, legs, fr, E', -, h3, -⟩ := TN.addNode_ok k4
                intro n hn
                simp only [h3] at hn
                rcases Dict.mem_keys_set.1 hn with h | h
                · rw [h, h0]; exact hP (t, idx, gate, r) (by simp)
                · rw [Circ.densOuts_tn k2, Circ.densIns_tn k1] at h
                  exact hA n h

/-- The operations of a circuit have the names `append` makes up. -/
def AutoNamed {α : Type} (c : Circ α) : Prop := ∀ g ∈ c.keys, ∃ t qs, g = Circ.autoName t qs

theorem AutoNamed.append {α : Type} {sh : Circ.ShapeFn α} {c c' : Circ α} (hc : AutoNamed c) {op : α} {qs : List Int} {t : Option Int}
    (h : c.append sh op qs t = .ok c') : AutoNamed c' := by
  unfold Circ.append at h
  simp only [Option.getD_none] at h
  split at h
  · cases h
  · split at h
    · cases h
    · split at h
      · cases h
      · cases h
        intro g hg
        rcases Dict.mem_keys_set.1 hg with rfl | hg
        · exact ⟨_, _, rfl⟩
        · exact hc g hg

theorem AutoNamed.copyLoop {α : Type} {sh : Circ.ShapeFn α} : ∀ {c acc c' : Circ α}, AutoNamed acc → AutoNamed c →
    Circ.copyLoop sh acc c = .ok c' → AutoNamed c'
  | [], acc, c', ha, _, h => by rw [Circ.copyLoop] at h; cases h; exact ha
  | (n, r) :: c, acc, c', ha, hc, h => by
    rw [Circ.copyLoop] at h
    split at h
    · cases h
    · next acc' h1 =>
      refine copyLoop (c := c) ?_ (fun g hg => hc g (List.mem_cons_of_mem _ hg)) h
      unfold Circ.append at h1
      simp only [Option.getD_some] at h1
      split at h1
      · cases h1
      · split at h1
        · cases h1
        · split at h1
          · cases h1
          · cases h1
            intro g hg
            rcases Dict.mem_keys_set.1 hg with rfl | hg
            · exact hc _ (by simp [Dict.keys])
            · exact ha g hg

theorem AutoNamed.appendAll {α : Type} {sh : Circ.ShapeFn α} : ∀ {c acc c' : Circ α}, AutoNamed acc → Circ.appendAll sh acc c = .ok c' → AutoNamed c'
  | [], acc, c', ha, h => by rw [Circ.appendAll] at h; cases h; exact ha
  | (n, r) :: c, acc, c', ha, h => by
    rw [Circ.appendAll] at h
    split at h
    · cases h
    · next acc' h1 => exact appendAll (c := c) (ha.append h1) h

/-- **C71**: circuits made with `append` (no name given) and `|`, as the ones of the demo, have made-up names. -/
theorem c71_or {α : Type} {sh : Circ.ShapeFn α} {a b c : Circ α} (ha : AutoNamed a) (h : a.orCirc sh b = .ok c) : AutoNamed c := by
  unfold Circ.orCirc at h
  split at h
  · cases h
  · next a' h1 => exact AutoNamed.appendAll (AutoNamed.copyLoop (fun g hg => by simp [Dict.keys] at hg) ha h1) h

theorem convertDensity_timed {α R : Type} {I : DensIface α (TVal R)} {c : Circ α} {tn : TN (TVal R)} (hc : AutoNamed c)
    (h : c.convertDensity I = .ok tn) : AllTimed tn := by
  unfold Circ.convertDensity at h
  split at h
  · cases h
  · cases h
  · split at h
    · cases h
    · next s hs =>
      cases h
      refine densLoop_timed (fun g hg => ?_) (fun n hn => by simp [Dict.keys] at hn) hs
      unfold Circ.visitFwd Circ.byTime at hg
      obtain ⟨x, hx, hg⟩ := List.mem_flatMap.1 hg
      obtain ⟨t, -, rfl⟩ := List.mem_map.1 hx
      obtain ⟨y, hy, rfl⟩ := List.mem_map.1 hg
      have := (List.mem_filter.1 (List.fst_mem_of_mem_zipIdx hy)).1
      obtain ⟨t', qs, hq⟩ := hc y.1.1 (List.mem_map.2 ⟨_, this, rfl⟩)
      simp only
      rw [hq]
      exact Timed.autoName t' qs

/-- **C71**, the claim is false: `surface_code_tensor_network_with_syndrome` looks for the nodes `PH` by the first entry of their name, which is the
time step of the measurement: whatever the syndrome is (also a list of other length), the network is returned as it was. -/
theorem c71_syndrome_violated {α R : Type} {I : DensIface α (TVal R)} {G : TN.Glue} {k : Nat} {c : Circ α} {tn tn' : TN (TVal R)}
    (hc : AutoNamed c) (h1 : c.convertDensity I = .ok tn) (h2 : TVal.expand G k tn = (tn', .ok ())) (butterfly : Nat → Option (TVal R))
    (syn : List Nat) : setPH butterfly syn tn' = ((tn', 0), .ok ()) := by
  have ht : AllTimed tn' := by
    have := (convertDensity_timed hc h1).expand (G := G) k
    rwa [h2] at this
  unfold setPH
  revert ht
  unfold AllTimed
  generalize tn'.nodes.keys = l
  intro ht
  induction l with
  | nil => rfl
  | cons n l ih =>
    obtain ⟨i, m, rfl⟩ := ht n List.mem_cons_self
    rw [forLoop, show setIfPH butterfly syn (tn', 0) (Nm.ofList (.int i :: m)) = ((tn', 0), .ok ()) by
      rw [setIfPH, Nm.first_ofList]
      simp]
    exact ih fun x hx => ht x (List.mem_cons_of_mem _ hx)

/-- The name of a node ends with `'PH'`. -/
def isPH (n : Nm) : Bool := n.tup.getLast? = some (.str "PH")

/-- The name of the node `'PH'` of an operation, after `expand`. -/
theorem c71_name (gate : Nm) : isPH (gate.comb (.str "PH")) = true := by
  simp [isPH, Nm.tup_comb, Nm.tup]

/-- The product of entries of tensors, whose indices are taken one after the other from a list. -/
def weigh {R : Type} [CommSemiring R] (val : τ → List Nat → R) : List (Nm × NodeRec τ) → List Nat → R
  | [], _ => 1
  | p :: ps, x => (p.2.factor val).ten (x.take p.2.legs.length) * weigh val ps (x.drop p.2.legs.length)

theorem weigh_map {R : Type} [CommSemiring R] (val : τ → List Nat → R) (a : Nm → Nat) : ∀ ps : List (Nm × NodeRec τ),
    weigh val ps ((ps.flatMap fun p => p.2.legs).map a) = prodAt (ps.map fun p => p.2.factor val) a
  | [] => rfl
  | p :: ps => by
    rw [weigh, List.map_cons, prodAt_cons, ← weigh_map val a ps, List.flatMap_cons, List.map_append,
      List.take_left' (by simp), List.drop_left' (by simp)]
    rfl

theorem openPH_loop : ∀ (todo pre : Dict Nm (NodeRec τ)) (tn : TN τ), tn.nodes = pre ++ todo → tn.nodes.keys.Nodup → tn.Consistent →
    (∀ n ∈ Dict.keys todo, ∃ l, l ≠ [] ∧ n = Nm.ofList l) →
    ∃ tn', forLoop openIfPH todo.keys tn = (tn', .ok ()) ∧ tn'.nodes = pre ++ todo.filter (fun p => !isPH p.1) ∧ tn'.edges = tn.edges ∧
      tn'.openE = tn.openE ++ (todo.filter fun p => isPH p.1).flatMap (fun p => p.2.legs) ∧ tn'.Consistent
  | [], pre, tn, h, _, hc, _ => ⟨tn, rfl, by simpa using h, rfl, by simp, hc⟩
  | (n, r) :: todo, pre, tn, h, hd, hc, hn => by
    obtain ⟨l, hl, hnl⟩ := hn n (by simp [Dict.keys])
    obtain ⟨x, hx⟩ : ∃ x, l.getLast? = some x := Option.isSome_iff_exists.1 (by simpa using hl)
    have hlast : n.last = .ok x := hnl ▸ Nm.last_ofList hx
    have hph : isPH n = decide (x = .str "PH") := by simp [isPH, hnl, Nm.tup_ofList, hx]
    have hn' : ∀ m ∈ Dict.keys todo, ∃ l, l ≠ [] ∧ m = Nm.ofList l := fun m hm => hn m (List.mem_cons_of_mem _ hm)
    by_cases hxp : x = .str "PH"
    · have hp : isPH n = true := by rw [hph]; simpa using hxp
      have hmem : tn.nodes.get? n = some r := by
        rw [← Dict.mem_iff_get? hd, h]; simp
      have hrem : tn.removeNode n = ({ tn with nodes := tn.nodes.del n, adj := tn.adj.filter (·.1 ≠ n), openE := tn.openE ++ r.legs }, .ok r) := by
        unfold TN.removeNode TN.popNode
        rw [hmem]
      have hdel : tn.nodes.del n = pre ++ todo := by
        rw [h] at hd
        unfold Dict.keys at hd
        rw [List.map_append, List.map_cons, List.nodup_append] at hd
        obtain ⟨-, h2, h3⟩ := hd
        have hp : ∀ p ∈ pre, p.1 ≠ n := fun p hp => h3 _ (List.mem_map.2 ⟨p, hp, rfl⟩) _ (by simp)
        have ht : ∀ p ∈ todo, p.1 ≠ n := fun p hp hh => (List.nodup_cons.1 h2).1 (hh ▸ List.mem_map.2 ⟨p, hp, rfl⟩)
        rw [h]
        unfold Dict.del
        rw [List.filter_append, List.filter_cons]
        simp only [ne_eq, not_true_eq_false, decide_false, Bool.false_eq_true, if_false]
        rw [List.filter_eq_self.2 fun p hm => by simpa using hp p hm, List.filter_eq_self.2 fun p hm => by simpa using ht p hm]
      obtain ⟨tn', a1, a2, a3, a4, a5⟩ := openPH_loop todo pre (tn.removeNode n).1 (by rw [hrem]; exact hdel)
        (by rw [hrem]; exact Dict.nodup_keys_del hd n) (hc.removeNode n) hn'
      rw [hrem] at a1 a3 a4
      refine ⟨tn', ?_, ?_, a3, ?_, a5⟩
      · show forLoop openIfPH (n :: Dict.keys todo) tn = _
        rw [forLoop, show openIfPH tn n = ((tn.removeNode n).1, .ok ()) by
          unfold openIfPH
          rw [hlast]
          simp only [hxp, if_true]
          rw [hrem], hrem]
        exact a1
      · rw [a2, List.filter_cons]; simp [hp]
      · rw [a4, List.filter_cons]; simp [hp]
    · have hp : isPH n = false := by rw [hph]; simpa using hxp
      obtain ⟨tn', a1, a2, a3, a4, a5⟩ := openPH_loop todo (pre ++ [(n, r)]) tn (by rw [h]; simp) hd hc hn'
      refine ⟨tn', ?_, ?_, a3, ?_, a5⟩
      · show forLoop openIfPH (n :: Dict.keys todo) tn = _
        rw [forLoop, show openIfPH tn n = (tn, .ok ()) by
          unfold openIfPH
          rw [hlast]
          simp only [hxp, if_false]]
        exact a1
      · rw [a2, List.filter_cons]; simp [hp]
      · rw [a4, List.filter_cons]; simp [hp]

/-- The sum over the new indices, for the edges `U`. -/
theorem open_sum {R : Type} [CommSemiring R] {dom : Nm → Finset Nat} {U : List Nm} {fs gs : List (Factor Nm R)} {val : τ → List Nat → R}
    {ps : List (Nm × NodeRec τ)} {opn : List Nm} (hf : fs.Perm (ps.map (fun p => p.2.factor val) ++ gs)) (S : Finset (List Nat)) (idx : List Nat)
    (hi : idx.length = opn.length) (hU : ∀ p ∈ ps, ∀ e ∈ p.2.legs, e ∈ U)
    (hS : ∀ a : Nm → Nat, (∀ p ∈ ps, ∀ e ∈ p.2.legs, a e ∈ dom e) → (ps.flatMap fun p => p.2.legs).map a ∈ S) (a0 : Nm → Nat) :
    sumOver dom U (fun a => if opn.map a = idx then prodAt fs a else 0) a0 = ∑ x ∈ S, weigh val ps x *
      sumOver dom U (fun a => if (opn ++ ps.flatMap fun p => p.2.legs).map a = idx ++ x then prodAt gs a else 0) a0 := by
  simp only [← sumOver_const_mul]
  rw [← sumOver_sum]
  refine sumOver_congr_reach fun a ha => ?_
  have hlegs : (ps.flatMap fun p => p.2.legs).map a ∈ S := hS a fun p hp e he => ha.2 e (hU p hp e he)
  rw [Finset.sum_eq_single ((ps.flatMap fun p => p.2.legs).map a)]
  · rw [List.map_append, weigh_map, prodAt_perm hf, prodAt_append]
    by_cases h : opn.map a = idx
    · rw [if_pos h, if_pos (by rw [h])]
    · rw [if_neg h, if_neg fun hh => h (List.append_cancel_right hh), mul_zero]
  · intro y _ hy
    rw [List.map_append, if_neg, mul_zero]
    intro hh
    exact hy (List.append_inj_right hh (by simp [hi])).symm
  · exact fun h => absurd hlegs h

/-- The placeholders of a network. -/
def phNodes (tn : TN τ) : List (Nm × NodeRec τ) := tn.nodes.filter fun p => isPH p.1

/-- The lists of values that the legs of the placeholders can take are in `S`. -/
def Covers (tn : TN τ) (S : Finset (List Nat)) : Prop :=
  ∀ a : Nm → Nat, (∀ p ∈ phNodes tn, ∀ e ∈ p.2.legs, a e ∈ tn.dom e) → ((phNodes tn).flatMap fun p => p.2.legs).map a ∈ S

/-- **C71**: the loop of `surface_code_tensor_network` removes exactly the nodes whose name ends with `'PH'` and opens their legs, in the order of the
nodes; the network it started from is the sum over the new indices, weighed with the entries of the removed nodes (with the sum over the edges in use,
and with the sum over all edges). -/
theorem c71_open {R : Type} [CommSemiring R] (val : τ → List Nat → R) {tn : TN τ} (hc : tn.Consistent)
    (hn : ∀ n ∈ tn.nodes.keys, ∃ l, l ≠ [] ∧ n = Nm.ofList l) :
    ∃ tn', openPH tn = (tn', .ok ()) ∧ tn'.Consistent ∧ tn'.nodes = tn.nodes.filter (fun p => !isPH p.1) ∧ tn'.edges = tn.edges ∧
      tn'.openE = tn.openE ++ (phNodes tn).flatMap (fun p => p.2.legs) ∧
      ∀ (S : Finset (List Nat)) (idx : List Nat), idx.length = tn.openE.length → Covers tn S →
        tn.value val idx = ∑ x ∈ S, weigh val (phNodes tn) x * tn'.value val (idx ++ x) ∧
        tn.total val idx = ∑ x ∈ S, weigh val (phNodes tn) x * tn'.total val (idx ++ x) := by
  obtain ⟨tn', a1, a2, a3, a4, a5⟩ := openPH_loop tn.nodes [] tn rfl hc.nodes_nodup hc hn
  rw [List.nil_append] at a2
  refine ⟨tn', a1, a5, a2, a3, a4, fun S idx hi hS => ?_⟩
  have hperm : tn.nodes.Perm (phNodes tn ++ tn'.nodes) := by
    rw [a2]
    exact (List.filter_append_perm (fun p => isPH p.1) tn.nodes).symm
  have hf : (tn.factors val).Perm ((phNodes tn).map (fun p => p.2.factor val) ++ tn'.factors val) := by
    unfold TN.factors
    rw [← List.map_append]
    exact hperm.map _
  have hdom : tn'.dom = tn.dom := by
    funext e
    unfold TN.dom
    rw [a3]
  have hmem : ∀ p ∈ phNodes tn, p ∈ tn.nodes := fun p hp => (List.mem_filter.1 hp).1
  change tn'.openE = tn.openE ++ (phNodes tn).flatMap _ at a4
  constructor
  · have hused : ∀ e, e ∈ usedEdges (tn'.factors val) tn'.openE ↔ e ∈ usedEdges (tn.factors val) tn.openE := by
      intro e
      rw [mem_usedEdges, mem_usedEdges, a4]
      constructor
      · rintro (⟨f, hf1, hf2⟩ | he)
        · exact Or.inl ⟨f, hf.mem_iff.2 (List.mem_append_right _ hf1), hf2⟩
        · rcases List.mem_append.1 he with he | he
          · exact Or.inr he
          · obtain ⟨p, hp, he⟩ := List.mem_flatMap.1 he
            exact Or.inl ⟨p.2.factor val, hf.mem_iff.2 (List.mem_append_left _ (List.mem_map.2 ⟨p, hp, rfl⟩)), he⟩
      · rintro (⟨f, hf1, hf2⟩ | he)
        · rcases List.mem_append.1 (hf.mem_iff.1 hf1) with h | h
          · obtain ⟨p, hp, rfl⟩ := List.mem_map.1 h
            exact Or.inr (List.mem_append_right _ (List.mem_flatMap.2 ⟨p, hp, hf2⟩))
          · exact Or.inl ⟨f, h, hf2⟩
        · exact Or.inr (List.mem_append_left _ he)
    have hval : ∀ y, tn'.value val y = sumOver tn.dom (usedEdges (tn.factors val) tn.openE)
        (fun a => if (tn.openE ++ (phNodes tn).flatMap fun p => p.2.legs).map a = y then prodAt (tn'.factors val) a else 0) fun _ => 0 := fun y => by
      unfold TN.value
      rw [einsum_eq_of_mem (nodup_usedEdges (tn.factors val) tn.openE) (fun e => (hused e).symm), hdom, a4]
    simp only [hval]
    rw [TN.value, einsum]
    exact open_sum hf S idx hi (fun p hp e he =>
      mem_usedEdges.2 (Or.inl ⟨p.2.factor val, List.mem_map.2 ⟨p, hmem p hp, rfl⟩, he⟩)) hS _
  · simp only [TN.total, hdom, a3, a4]
    exact open_sum hf S idx hi (fun p hp e he => hc.legs_exist p.1 p.2 (Dict.get?_of_mem hc.nodes_nodup (hmem p hp)) e he) hS _

/-- The placeholders of a network have one leg each, with values 0 and 1, and all entries 1. -/
def OneBit {R : Type} [CommSemiring R] (val : τ → List Nat → R) (tn : TN τ) : Prop :=
  ∀ p ∈ phNodes tn, ∃ e, p.2.legs = [e] ∧ tn.dom e ⊆ Finset.range 2 ∧ ∀ b < 2, (p.2.factor val).ten [b] = 1

theorem weigh_one {R : Type} [CommSemiring R] {val : τ → List Nat → R} : ∀ {ps : List (Nm × NodeRec τ)} {x : List Nat},
    (∀ p ∈ ps, ∃ e, p.2.legs = [e] ∧ ∀ b < 2, (p.2.factor val).ten [b] = 1) → x.length = ps.length → (∀ v ∈ x, v < 2) → weigh val ps x = 1
  | [], _, _, _, _ => rfl
  | p :: ps, [], _, h, _ => by simp at h
  | p :: ps, v :: x, h, hl, hx => by
    obtain ⟨e, h1, h2⟩ := h p List.mem_cons_self
    rw [weigh, h1]
    simp only [List.length_singleton, List.take_succ_cons, List.take_zero, List.drop_succ_cons, List.drop_zero]
    rw [h2 v (hx v List.mem_cons_self), one_mul]
    exact weigh_one (fun q hq => h q (List.mem_cons_of_mem _ hq)) (by simpa using hl) fun w hw => hx w (List.mem_cons_of_mem _ hw)

/-- All lists of `k` bits. -/
def bitLists (k : Nat) : Finset (List Nat) := Finset.univ.image fun x : Fin k → Fin 2 => List.ofFn fun i => (x i : Nat)

theorem mem_bitLists {k : Nat} {x : List Nat} : x ∈ bitLists k ↔ x.length = k ∧ ∀ v ∈ x, v < 2 := by
  unfold bitLists
  rw [Finset.mem_image]
  constructor
  · rintro ⟨f, -, rfl⟩
    refine ⟨by simp, fun v hv => ?_⟩
    obtain ⟨i, rfl⟩ := (List.mem_ofFn' _ _).1 hv
    exact (f i).2
  · rintro ⟨rfl, h⟩
    refine ⟨fun i => ⟨x[i], h _ (List.getElem_mem _)⟩, Finset.mem_univ _, ?_⟩
    exact List.ofFn_getElem (xs := x)

/-- **C71**: the network of `surface_code_tensor_network`, summed over all outcomes of all measurements, is the network with the placeholders. -/
theorem c71_outcomes {R : Type} [CommSemiring R] (val : τ → List Nat → R) {tn : TN τ} (hc : tn.Consistent)
    (hn : ∀ n ∈ tn.nodes.keys, ∃ l, l ≠ [] ∧ n = Nm.ofList l) (hb : OneBit val tn) :
    ∃ tn', openPH tn = (tn', .ok ()) ∧ tn'.openE.length = tn.openE.length + (phNodes tn).length ∧
      ∀ idx : List Nat, idx.length = tn.openE.length →
        tn.value val idx = ∑ x ∈ bitLists (phNodes tn).length, tn'.value val (idx ++ x) ∧
        tn.total val idx = ∑ x ∈ bitLists (phNodes tn).length, tn'.total val (idx ++ x) := by
  obtain ⟨tn', a1, -, -, -, a5, a6⟩ := c71_open val hc hn
  have hlen : ((phNodes tn).flatMap fun p => p.2.legs).length = (phNodes tn).length := by
    rw [List.length_flatMap]
    rw [List.map_congr_left (g := fun _ => 1) fun p hp => by obtain ⟨e, he, -⟩ := hb p hp; rw [he]; rfl]
    simp
  have hcov : Covers tn (bitLists (phNodes tn).length) := fun a ha => by
    refine mem_bitLists.2 ⟨by rw [List.length_map, hlen], fun v hv => ?_⟩
    obtain ⟨e, he, rfl⟩ := List.mem_map.1 hv
    obtain ⟨p, hp, he⟩ := List.mem_flatMap.1 he
    obtain ⟨e', h1, h2, -⟩ := hb p hp
    have : e = e' := by rw [h1] at he; simpa using he
    subst this
    exact Finset.mem_range.1 (h2 (ha p hp e (by rw [h1]; simp)))
  have hw : ∀ x ∈ bitLists (phNodes tn).length, weigh val (phNodes tn) x = 1 := fun x hx =>
    weigh_one (fun p hp => let ⟨e, h1, _, h3⟩ := hb p hp; ⟨e, h1, h3⟩) (mem_bitLists.1 hx).1 (mem_bitLists.1 hx).2
  refine ⟨tn', a1, by rw [a5, List.length_append, hlen], fun idx hi => ?_⟩
  obtain ⟨h1, h2⟩ := a6 _ idx hi hcov
  exact ⟨h1.trans (Finset.sum_congr rfl fun x hx => by rw [hw x hx, one_mul]),
    h2.trans (Finset.sum_congr rfl fun x hx => by rw [hw x hx, one_mul])⟩

/-- **C71**, from the circuit: the density network of a circuit with made-up names is, summed over all edges, the sum over all outcomes of
the opened network. -/
theorem c71_readout {α R : Type} [CommSemiring R] [Star R] {I : DensIface α (TVal R)} {G : TN.Glue} (hG : G.Sound) {k : Nat} {c : Circ α}
    {tn : TN (TVal R)} (hc : AutoNamed c) (h1 : c.convertDensity I = .ok tn) (he : TVal.Expandable k tn)
    (hb : ∀ tn1, TVal.expand G k tn = (tn1, .ok ()) → OneBit TVal.tot tn1) :
    ∃ tn1 tn2, TVal.expand G k tn = (tn1, .ok ()) ∧ openPH tn1 = (tn2, .ok ()) ∧
      tn2.openE.length = tn.openE.length + (phNodes tn1).length ∧
      ∀ idx : List Nat, idx.length = tn.openE.length →
        tn.total TVal.tot idx = ∑ x ∈ bitLists (phNodes tn1).length, tn2.total TVal.tot (idx ++ x) := by
  obtain ⟨tn1, b1, b2, b3, -, b5⟩ := TVal.c17_total hG he
  have hlen : tn1.openE.length = tn.openE.length := by
    have hcc : tn.Consistent := by
      cases k with
      | zero => exact he.elim
      | succ k => exact he.1
    rw [TN.shape?_eq b2.open_exist, TN.shape?_eq hcc.open_exist] at b3
    simpa using congrArg (fun o => (o.getD []).length) b3
  have ht : AllTimed tn1 := by
    have := (convertDensity_timed hc h1).expand (G := G) k
    rwa [b1] at this
  obtain ⟨tn2, c1, c2, c3⟩ := c71_outcomes TVal.tot b2 (fun n hn => by
    obtain ⟨i, l, rfl⟩ := ht n hn
    exact ⟨_, by simp, rfl⟩) (hb tn1 b1)
  exact ⟨tn1, tn2, b1, c1, by rw [c2, hlen], fun idx hi => by rw [← b5, (c3 idx (by rw [hi, hlen])).2]⟩

end Qec

end Verif

namespace Verif

namespace Qec

/-! ## The hypotheses can be met -/

/-- surface_code.py:22-23: the network `Z`. -/
def phNet : TN (TVal Nat) where
  nodes := [(.str "PH", ⟨[.int 0], some (arrVal [2] fun _ => 1), false⟩)]
  edges := [(.int 0, { dim := some 2 })]
  adj := [(.str "PH", .int 0)]
  openE := [.int 0, .int 0]

/-- A density matrix and the placeholder. -/
def phIface : DensIface Bool (TVal Nat) where
  shape := fun b => .ok (if b then [[.i]] else [[.o]])
  dens := fun b => .ok (if b then .ofTN phNet else arrVal [2, 2] fun i => 2 * i.headD 0 + i.getLastD 0 + 1)

/-- Both on qubits 3 and 4. -/
def phCirc : Except Err (Circ Bool) := do
  let c ← Circ.append phIface.shape [] false [3] (some 0)
  let c ← Circ.append phIface.shape c false [4] (some 0)
  let c ← Circ.append phIface.shape c true [3] (some 7)
  Circ.append phIface.shape c true [4] (some 7)

example : ∃ c tn tn1 tn2, phCirc = .ok c ∧ c.convertDensity phIface = .ok tn ∧ TVal.expand stdGlue 3 tn = (tn1, .ok ()) ∧
    openPH tn1 = (tn2, .ok ()) ∧ (phNodes tn1).length = 2 ∧ tn2.openE.length = 2 ∧ tn2.nodes.length = 2 ∧
    (phNodes tn1).map (·.1) = [Nm.ofList [.int 7, .cons (.int 3) .nil, .str "PH"], Nm.ofList [.int 7, .cons (.int 4) .nil, .str "PH"]] := by
  refine ⟨_, _, _, _, rfl, rfl, rfl, rfl, ?_⟩
  decide +kernel

/-- The density network of the circuit. -/
def phTN : TN (TVal Nat) := match phCirc with
  | .ok c => match c.convertDensity phIface with
    | .ok tn => tn
    | .error _ => {}
  | .error _ => {}

theorem phNet_consistent : phNet.Consistent :=
  c11_consistent_partial (ops := [.addNode (some (.str "PH")) (.int 0) (some [.int 0]) (arrVal [2] fun _ => 1) false,
    .openEdge (.int 0) none, .openEdge (.int 0) none]) ⟨trivial, trivial, trivial, trivial⟩ rfl

theorem under_iff {n x : Nm} : n.Under x ↔ n.tup <+: x.tup ∧ n.tup ≠ x.tup := by
  constructor
  · rintro ⟨y, h1, h2⟩
    exact ⟨⟨y, h2.symm⟩, fun h => h1 (by rw [h2] at h; simpa using h)⟩
  · rintro ⟨⟨y, h⟩, h2⟩
    exact ⟨y, fun hy => h2 (by rw [← h, hy, List.append_nil]), h.symm⟩

theorem phNet_expandable : TVal.Expandable 1 phNet := by
  have hno : ∀ n r t, phNet.nodes.get? n = some r → r.ten = some t → ¬ t.IsNet ∧ ∀ u, t ≠ .view u := by
    intro n r t hr ht
    have := Dict.mem_of_get? hr
    simp only [phNet, List.mem_cons, List.not_mem_nil, or_false, Prod.mk.injEq] at this
    obtain ⟨rfl, rfl⟩ := this
    cases ht; exact ⟨fun ⟨s, hs⟩ => (by cases hs), fun u hu => (by cases hu)⟩
  refine ⟨phNet_consistent, ?_, ⟨by decide, by decide, by decide, by decide, ?_, ?_⟩, ?_⟩
  · intro e r hr
    have := Dict.mem_of_get? hr
    simp only [phNet, List.mem_cons, List.not_mem_nil, or_false, Prod.mk.injEq] at this
    obtain ⟨rfl, rfl⟩ := this
    exact ⟨2, rfl, by simp⟩
  · exact fun n r t hr ht hi => absurd hi (hno n r t hr ht).1
  · exact fun n r t hr ht hi => absurd hi (hno n r t hr ht).1
  · intro n r hr
    have hm := Dict.mem_of_get? hr
    simp only [phNet, List.mem_cons, List.not_mem_nil, or_false, Prod.mk.injEq] at hm
    obtain ⟨rfl, rfl⟩ := hm
    obtain ⟨h1, h2⟩ := hno _ _ _ hr rfl
    exact ⟨_, rfl, h2, fun s hs => absurd ⟨s, hs⟩ h1⟩

theorem phTN_expandable : TVal.Expandable 2 phTN := by
  have hnames : ∀ n ∈ phTN.nodes.keys, (∀ m ∈ phTN.nodes.keys, ¬ n.Under m) ∧ ∀ e ∈ phTN.edges.keys, ¬ n.Under e := by
    simp only [under_iff]
    decide +kernel
  have hten : ∀ p ∈ phTN.nodes, ∃ t, p.2.ten = some t ∧ (t = .ofTN phNet ∨ t = arrVal [2, 2] fun i => 2 * i.headD 0 + i.getLastD 0 + 1) := by
    have : phTN.nodes.map (·.2.ten) = [some (arrVal [2, 2] fun i => 2 * i.headD 0 + i.getLastD 0 + 1),
      some (arrVal [2, 2] fun i => 2 * i.headD 0 + i.getLastD 0 + 1), some (.ofTN phNet), some (.ofTN phNet)] := rfl
    intro p hp
    have h : p.2.ten ∈ phTN.nodes.map (·.2.ten) := List.mem_map.2 ⟨p, hp, rfl⟩
    rw [this] at h
    simp only [List.mem_cons, List.not_mem_nil, or_false] at h
    rcases h with h | h | h | h <;> exact ⟨_, h, by simp⟩
  have hshape : ∀ p ∈ phTN.nodes, p.2.legs.map phTN.edim = [some 2, some 2] := by decide +kernel
  have hedge : ∀ p ∈ phTN.edges, p.2.dim = some 2 ∧ p.2.fix = none := by decide +kernel
  refine ⟨?_, ?_, ⟨by decide +kernel, by decide +kernel, by decide +kernel, by decide +kernel, ?_, ?_⟩, ?_⟩
  · have hleg : ∀ p ∈ phTN.nodes, ∀ e ∈ p.2.legs, e ∈ phTN.edges.keys ∧ (p.1, e) ∈ phTN.adj := by decide +kernel
    have hadj : ∀ p ∈ phTN.adj, ∃ q ∈ phTN.nodes, q.1 = p.1 ∧ p.2 ∈ q.2.legs := by decide +kernel
    have hnd : phTN.nodes.keys.Nodup := by decide +kernel
    refine ⟨hnd, by decide +kernel, fun n r hr e he => (hleg _ (Dict.mem_of_get? hr) e he).1, by decide +kernel, fun n e => ⟨fun h => ?_, ?_⟩,
      by decide +kernel⟩
    · obtain ⟨q, hq, h1, h2⟩ := hadj _ h
      exact ⟨q.2, Dict.get?_of_mem hnd (by simp only at h1; rw [← h1]; exact hq), h2⟩
    · rintro ⟨r, hr, he⟩
      exact (hleg _ (Dict.mem_of_get? hr) e he).2
  · intro e r hr
    obtain ⟨h1, h2⟩ := hedge _ (Dict.mem_of_get? hr)
    exact ⟨2, h1, by simp [show r.fix = none from h2]⟩
  · exact fun n r t hr _ _ n' hn' => (hnames n (Dict.mem_keys_of_get? hr)).1 n' hn'
  · exact fun n r t hr _ _ n' hn' => (hnames n (Dict.mem_keys_of_get? hr)).2 n' hn'
  · intro n r hr
    obtain ⟨t, ht, h⟩ := hten _ (Dict.mem_of_get? hr)
    refine ⟨t, ht, fun u hu => ?_, fun s hs => ?_⟩
    · rcases h with rfl | rfl <;> cases hu
    · rcases h with rfl | rfl
      · have : s = phNet := by cases s; cases hs; rfl
        subst this
        exact ⟨phNet_expandable, by rw [hshape _ (Dict.mem_of_get? hr)]; rfl⟩
      · cases hs

/-- The hypotheses of `c71_readout` and `c71_syndrome_violated` are met, with two placeholders. -/
example : ∃ c tn1, phCirc = .ok c ∧ AutoNamed c ∧ c.convertDensity phIface = .ok phTN ∧ TVal.Expandable 2 phTN ∧
    TVal.expand stdGlue 2 phTN = (tn1, .ok ()) ∧ OneBit TVal.tot tn1 ∧ (phNodes tn1).length = 2 ∧
    phTN.total TVal.tot [] = 25 := by
  refine ⟨[(Circ.autoName 0 [3], ⟨false, 0, [3]⟩), (Circ.autoName 0 [4], ⟨false, 0, [4]⟩), (Circ.autoName 7 [3], ⟨true, 7, [3]⟩),
    (Circ.autoName 7 [4], ⟨true, 7, [4]⟩)], (TVal.expand stdGlue 2 phTN).1, rfl, ?_, rfl, phTN_expandable, rfl, ?_, by decide +kernel,
    by decide +kernel⟩
  · intro g hg
    simp only [Dict.keys, List.map_cons, List.map_nil, List.mem_cons, List.not_mem_nil, or_false] at hg
    rcases hg with h | h | h | h <;> exact ⟨_, _, h⟩
  · have h : ∀ p ∈ phNodes (TVal.expand stdGlue 2 phTN).1, p.2.legs.length = 1 ∧
        (∀ e ∈ p.2.legs, (TVal.expand stdGlue 2 phTN).1.dom e ⊆ Finset.range 2) ∧ ∀ b < 2, (p.2.factor TVal.tot).ten [b] = 1 := by
      decide +kernel
    intro p hp
    obtain ⟨h1, h2, h3⟩ := h p hp
    obtain ⟨e, he⟩ := List.length_eq_one_iff.1 h1
    exact ⟨e, he, h2 e (by rw [he]; simp), h3⟩

end Qec

end Verif
