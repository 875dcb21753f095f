import Verif.Lemmas.Solid
import Verif.Props.Operation
/-!
# Helper lemmas: the operators and the conversion of gates give tensors that can be contracted
-/

set_option linter.unusedSectionVars false

namespace Verif

namespace TVal

variable {R : Type} [CommSemiring R] [StarRing R]

theorem solid_ten (d : Nat) (a : Arr R) : Solid d (.ten (some a)) := .ten a

/-- No edge of the network has the name `n` of a node that holds the tensor, or its edges are called by tuples. -/
def Apart (n : Nm) (m : Nat) (t : TVal R) : Prop := t.IsNet → (∀ k : Nat, n = .int k → m ≤ k) ∨ Tucked t

theorem tucked_ten (a : Option (Arr R)) : Tucked (.ten a) := fun s h => by simp [ofTN] at h

theorem tucked_sum (ts : List (Nm × TVal R)) : Tucked (.sum ts) := fun s h => by simp [ofTN] at h

theorem tucked_open {tn : TN (TVal R)} (h : ∀ x ∈ tn.edges.keys, x ∈ tn.openE) : Tucked (ofTN tn) := fun s hs x hx hc => by
  obtain rfl := ofTN_inj hs
  exact absurd (h x hx) hc

theorem Tucked.apart {t : TVal R} (h : Tucked t) (n : Nm) (m : Nat) : Apart n m t := fun _ => Or.inr h

theorem apart_ten (n : Nm) (m : Nat) (a : Option (Arr R)) : Apart n m (.ten a) := (tucked_ten a).apart n m

theorem Apart.free {n : Nm} {t : TVal R} {tn : TN (TVal R)} {S : List Nat} (hd : HasDims tn S) (h : Apart n S.length t) (ht : t.IsNet) :
    n ∉ tn.edges.keys ∨ Tucked t :=
  (h ht).imp (fun h hc => by
    obtain ⟨k, hk, rfl⟩ := mem_rangeLegs.1 ((hd.1 n).1 hc)
    exact absurd (h k rfl) (by omega)) id

/-- Names of nodes that are no tuples and not those used by the library. -/
def NodeName (n : Nm) : Prop := n.tup = [n] ∧ n ≠ .str "*" ∧ n ≠ .str "#"

theorem nodeName_int (i : Nat) : NodeName (.int i) := ⟨rfl, by simp, by simp⟩

/-- A network of one node. -/
theorem solid_one {i : Nm} {tn : TN (TVal R)} {sh : List Nat} {d : Nat} {t : TVal R} {op : List Nm} {b : Bool} (hi : NodeName i)
    (hs : t.shape = some (sh.map some)) (ht : Solid d t) (ha : Apart i sh.length t) (hc : tn.Consistent) (hd : HasDims tn sh)
    (hn : tn.nodes = [(i, ⟨rangeLegs sh.length, some t, b⟩)]) (ho : ∀ e ∈ op, e ∈ tn.edges.keys) :
    Solid (d + 1) (ofTN { tn with openE := op }) := by
  refine solid_range (S := sh) ⟨hc.nodes_nodup, hc.edges_nodup, hc.legs_exist, ho, hc.adj_iff, hc.adj_nodup⟩ hd (fun n r hr => ?_)
    ⟨_, by show _ ∈ tn.nodes; rw [hn]; exact List.mem_singleton.2 rfl, rfl⟩
  have hm := Dict.mem_of_get? hr
  change _ ∈ tn.nodes at hm
  rw [hn, List.mem_singleton] at hm
  cases hm
  exact ⟨hi, sh.length, t, le_refl _, rfl, rfl, ht, by rw [List.take_length]; exact hs, fun h => ha.free hd h⟩

/-- `transpose` of a solid tensor. -/
theorem solid_transpose {i : Nm} {t t' : TVal R} {axes sh : List Nat} {d : Nat} (hi : NodeName i) (hs : t.shape = some (sh.map some))
    (ht : Solid d t) (ha : Apart i sh.length t) (hp : axes.Perm (List.range sh.length)) (h : transpose i t axes = .ok t') :
    Solid (d + 1) t' ∧ Tucked t' := by
  obtain ⟨tn, h1, h2, h3, h4⟩ := oneNode (τ := TVal R) (o := true) (i := i) (t := t) hs
  have hcons : tn.Consistent := TN.Consistent.empty.addNode (by simp [Dict.keys]) h1
  have hm : axes.mapM (fun i => tn.openE[i]?) = some (axes.map fun k : Nat => Nm.int k) := by
    refine mapM_some fun k hk => ?_
    rw [h4, if_pos rfl, rangeLegs_get (List.mem_range.1 (hp.mem_iff.1 hk))]
  unfold transpose at h
  rw [h1] at h
  dsimp only at h
  rw [hm] at h
  cases h
  refine ⟨solid_one hi hs ht ha hcons h2 h3 fun e he => ?_, tucked_open fun x hx => ?_⟩
  · obtain ⟨k, hk, rfl⟩ := List.mem_map.1 he
    exact (h2.1 _).2 (mem_rangeLegs.2 ⟨k, List.mem_range.1 (hp.mem_iff.1 hk), rfl⟩)
  · obtain ⟨k, hk, rfl⟩ := mem_rangeLegs.1 ((h2.1 x).1 hx)
    exact List.mem_map.2 ⟨k, hp.mem_iff.2 (List.mem_range.2 hk), rfl⟩

/-- Products of solid tensors. -/
theorem solid_mul {ia ib : Nm} {a b t : TVal R} {sa sb : List Nat} {d : Nat} (hia : NodeName ia) (hib : NodeName ib) (hne : ia ≠ ib)
    (hsa : a.shape = some (sa.map some)) (hsb : b.shape = some (sb.map some)) (hov : Overlap sa sb) (hta : Solid d a) (htb : Solid d b)
    (ha : Apart ia (longer sa sb).length a) (hb : Apart ib (longer sa sb).length b) (h : mul ia a ib b = .ok t) :
    Solid (d + 1) t ∧ Tucked t := by
  obtain ⟨tn, tn', h1, h2, h3, h4, h5⟩ := twoNodes (τ := TVal R) (o := true) hne hsa hsb hov
  have hc1 : tn.Consistent := TN.Consistent.empty.addNode (by simp [Dict.keys]) h1
  obtain ⟨tn2, k1, -, k3, -⟩ := oneNode (τ := TVal R) (o := true) (i := ia) (t := a) hsa
  rw [h1] at k1; cases k1
  have hc : tn'.Consistent := hc1.addNode (fun _ => by rw [k3]; simpa [Dict.keys] using hne.symm) h2
  unfold mul at h
  rw [h1] at h
  dsimp only at h
  rw [h2] at h
  cases h
  rw [if_pos rfl] at h5
  have hll : (longer sa sb).length = max sa.length sb.length := by unfold longer; split <;> omega
  have hla : sa.length ≤ (longer sa sb).length := by omega
  have hlb : sb.length ≤ (longer sa sb).length := by omega
  refine ⟨solid_range hc h3 (fun n r hr => ?_) ?_, tucked_open fun x hx => ?_⟩
  · have hm := Dict.mem_of_get? hr
    rw [h4] at hm
    rcases List.mem_cons.1 hm with hm | hm
    · cases hm
      exact ⟨hia, sa.length, a, hla, rfl, rfl, hta, by rw [← longer_left hov]; exact hsa, fun h => ha.free h3 h⟩
    · rw [List.mem_singleton] at hm
      cases hm
      exact ⟨hib, sb.length, b, hlb, rfl, rfl, htb, by rw [← longer_right hov]; exact hsb, fun h => hb.free h3 h⟩
  · rw [hll, h4]
    by_cases hl : sa.length ≤ sb.length
    · exact ⟨(ib, _), List.mem_cons_of_mem _ (List.mem_singleton.2 rfl), by rw [Nat.max_eq_right hl]⟩
    · exact ⟨(ia, _), List.mem_cons_self, by rw [Nat.max_eq_left (by omega)]⟩
  · obtain ⟨k, hk, rfl⟩ := mem_rangeLegs.1 ((h3.1 x).1 hx)
    rw [hll] at hk
    rw [h5, List.mem_append]
    by_cases hl : k < sa.length
    · exact Or.inl (mem_rangeLegs.2 ⟨k, hl, rfl⟩)
    · exact Or.inr (mem_rangeLegs.2 ⟨k, by omega, rfl⟩)

end TVal

namespace Oper

variable {R : Type} [CommSemiring R] [StarRing R]

open TVal

theorem tucked_convertCtrl {data t : TVal R} {s : List (List Letter)} {sa : Bool} (h : CtrlOk data s sa)
    (ht : convertCtrl data s = .ok t) : Tucked t := by
  obtain ⟨t', e1, e2, -, -, tn', rfl, e3⟩ := convertCtrl_open h.words h.dims h.whole
  rw [ht] at e1; cases e1
  exact tucked_open e3

theorem solid_convertCtrl {data t : TVal R} {s : List (List Letter)} {k m : Nat} {d : List Nat} (hs : data.shape = some (d.map some))
    (ht : convertCtrl data s = .ok t) (hm : t.shape = some (List.replicate m (some 2))) (hd : Solid k data) : Solid (k + 1) t := by
  have hflat := flat_convertCtrl hs ht hm hd.flat
  obtain ⟨tn, h1, h2, h3, -⟩ := oneNode (τ := TVal R) (o := false) (i := .str "TC") (t := data) hs
  have hcons : tn.Consistent := TN.Consistent.empty.addNode (by simp [Dict.keys]) h1
  unfold convertCtrl at ht
  rw [addNode_named, h1] at ht
  dsimp only at ht
  split at ht
  · cases ht
  · split at ht
    · cases ht
    · next outs _ _ ins _ =>
      cases ht
      refine solid_one (i := .str "TC") ⟨rfl, by simp, by simp⟩ hs hd (fun _ => Or.inl fun k hk => by cases hk) hcons h2 h3 fun e he => ?_
      exact (hflat.2 _ rfl).1.open_exist e he

theorem addTerm_mem {τ : Type} [HasShape τ] {ts ts' : TSum τ} {n m : Nm} {t : τ} (h : ts.addTerm (some n) n t = (ts', .ok m)) {q : Nm × τ}
    (hq : q ∈ ts'.terms) : q ∈ ts.terms ∨ q = (n, t) := by
  have hset : ∀ d : Dict Nm τ, q ∈ d.set n t → q ∈ d ∨ q = (n, t) := fun d hd => by
    induction d with
    | nil => exact Or.inr (List.mem_singleton.1 hd)
    | cons p d ih =>
      obtain ⟨k, v⟩ := p
      unfold Dict.set at hd
      split at hd
      · rcases List.mem_cons.1 hd with h | h
        · exact Or.inr h
        · exact Or.inl (List.mem_cons_of_mem _ h)
      · rcases List.mem_cons.1 hd with h | h
        · exact Or.inl (by rw [h]; exact List.mem_cons_self)
        · exact (ih h).imp (List.mem_cons_of_mem _) id
  unfold TSum.addTerm at h
  dsimp only [Option.getD_some] at h
  split at h
  · cases h
  · split at h
    · cases h
      exact hset _ hq
    · split at h
      · cases h
      · next s1 c hs1 =>
        have e : s1.terms = ts.terms := by
          unfold TSum.shapeProp at hs1
          split at hs1
          · cases hs1; rfl
          · split at hs1 <;> cases hs1
            rfl
        split at h
        · cases h
          rw [← e]
          exact hset _ hq
        · cases h

theorem supLoop_mem {I : OpsIface (Oper R) (TVal R)} : ∀ (l : List (R × Oper R)) (i : Nat) (ts : TSum (TVal R)) {ts' : TSum (TVal R)},
    supLoop I l i ts = .ok ts' → ∀ q ∈ ts'.terms, q ∈ ts.terms ∨ ∃ p ∈ l, ∃ t, I.tensor p.2 = .ok t ∧
      TVal.mul (.int 0) t (.int 1) (.scalar p.1) = .ok q.2
  | [], i, ts, ts', h, q, hq => by cases h; exact Or.inl hq
  | (c, op) :: l, i, ts, ts', h, q, hq => by
    unfold supLoop at h
    split at h
    · cases h
    · next t ht =>
      split at h
      · cases h
      · next t' ht' =>
        split at h
        · cases h
        · next ts1 _ hts =>
          rcases supLoop_mem l _ _ h q hq with h1 | ⟨p, hp, t2, h2, h3⟩
          · have : q ∈ ts.terms ∨ q = (.int i, t') := addTerm_mem hts h1
            rcases this with h1 | rfl
            · exact Or.inl h1
            · exact Or.inr ⟨(c, op), by simp, t, ht, ht'⟩
          · exact Or.inr ⟨p, by simp [hp], t2, h2, h3⟩

end Oper

end Verif
