import Verif.Model.Stem
import Verif.Lemmas.OrderMoves
import Mathlib.Tactic.Abel
import Mathlib.Algebra.Order.Group.Multiset
/-!
# Names in contraction trees, and changing the children of a node

Used for C60.
-/

namespace Verif

namespace PTree

/-- The names of the initial tensors. -/
def lv : PTree → Multiset Nm
  | leaf n _ => {n}
  | node _ _ _ a b => a.lv + b.lv

/-- The names of the results of steps. -/
def inn : PTree → Multiset Nm
  | leaf _ _ => 0
  | node _ n _ a b => {n} + (a.inn + b.inn)

/-- All names. -/
def nms (t : PTree) : Multiset Nm := t.lv + t.inn

/-- Without what the search does not look at. -/
def toC : PTree → CTree
  | leaf n _ => .leaf n
  | node _ n _ a b => .two n a.toC b.toC

/-- No node was made by the search. -/
def Old : PTree → Prop
  | leaf _ _ => True
  | node new _ _ a b => new = false ∧ a.Old ∧ b.Old

theorem toC_name (t : PTree) : t.toC.name = t.name := by cases t <;> rfl

theorem toC_fullOrder (t : PTree) : t.toC.fullOrder = t.fullOrder := by
  induction t with
  | leaf n s => rfl
  | node new n s a b iha ihb => simp only [toC, CTree.fullOrder, fullOrder, iha, ihb, toC_name]

theorem toC_leaves (t : PTree) : (t.toC.leaves : Multiset Nm) = t.lv := by
  induction t with
  | leaf n s => rfl
  | node new n s a b iha ihb =>
    rw [toC, CTree.leaves, lv, ← iha, ← ihb]
    rfl

theorem fullOrder_names (t : PTree) : (t.fullOrder.map (·.2) : Multiset Nm) = t.inn := by
  induction t with
  | leaf n s => rfl
  | node new n s a b iha ihb =>
    simp only [fullOrder, List.map_append, List.map_cons, List.map_nil, ← Multiset.coe_add, iha, ihb, inn, Multiset.coe_singleton]
    abel

theorem pairwise_fullOrder (t : PTree) : Pairwise2 t.fullOrder := by
  induction t with
  | leaf n s => simp [fullOrder, Pairwise2]
  | node new n s a b iha ihb =>
    intro st hst
    simp only [fullOrder, List.mem_append, List.mem_singleton] at hst
    rcases hst with (h | h) | h
    · exact ihb st h
    · exact iha st h
    · rw [h]; rfl

theorem name_mem (t : PTree) : t.name ∈ t.nms := by
  cases t <;> simp [name, nms, lv, inn]

/-- Trees with the same names. -/
structure Same (t t' : PTree) : Prop where
  lv : t'.lv = t.lv
  inn : t'.inn = t.inn
  name : t'.name = t.name

theorem Same.nms {t t' : PTree} (h : Same t t') : t'.nms = t.nms := by
  unfold PTree.nms
  rw [h.lv, h.inn]

theorem Same.refl (t : PTree) : Same t t := ⟨rfl, rfl, rfl⟩

theorem Same.trans {t u v : PTree} (h : Same t u) (k : Same u v) : Same t v :=
  ⟨k.lv.trans h.lv, k.inn.trans h.inn, k.name.trans h.name⟩

/-- The order of a tree with the right names is valid. -/
theorem order_valid {ns : List Nm} {t : PTree} (hl : t.lv = (ns : Multiset Nm)) (hn : t.nms.Nodup) :
    ValidOrder ns t.fullOrder t.name ∧ Pairwise2 t.fullOrder ∧ SingleAssignment ns t.fullOrder := by
  have h1 : (t.toC.names : Multiset Nm) = t.nms := by
    rw [Multiset.coe_eq_coe.2 t.toC.names_perm, ← Multiset.coe_add, toC_leaves, toC_fullOrder, fullOrder_names]
    rfl
  have h2 : t.toC.names.Nodup := by rw [← Multiset.coe_nodup, h1]; exact hn
  have h3 := t.toC.runs [] h2 (by simp)
  rw [List.append_nil, toC_fullOrder, toC_name] at h3
  refine ⟨validOrder_iff.2 (h3.permL ?_), t.pairwise_fullOrder, ?_⟩
  · rw [← Multiset.coe_eq_coe, toC_leaves, hl]
  · unfold SingleAssignment
    rw [← Multiset.coe_nodup, ← Multiset.coe_add, fullOrder_names, ← hl]
    exact hn

theorem mk_lv (new : Bool) (n : Nm) (s : List Nm) (x y : PTree) : (mk new n s x y).lv = x.lv + y.lv := by
  unfold mk
  split
  · rfl
  · rw [lv, add_comm]

theorem mk_inn (new : Bool) (n : Nm) (s : List Nm) (x y : PTree) : (mk new n s x y).inn = {n} + (x.inn + y.inn) := by
  unfold mk
  split
  · rfl
  · rw [inn, add_comm x.inn]

theorem mk_name (new : Bool) (n : Nm) (s : List Nm) (x y : PTree) : (mk new n s x y).name = n := by
  unfold mk
  split <;> rfl

theorem mk_node (new : Bool) (n : Nm) (s : List Nm) (x y : PTree) : ∃ a b, mk new n s x y = node new n s a b := by
  unfold mk
  split <;> exact ⟨_, _, rfl⟩

theorem mem_nms_node {new : Bool} {n : Nm} {s : List Nm} {a b : PTree} {m : Nm} : m ∈ (node new n s a b).nms ↔ m = n ∨ m ∈ a.nms ∨ m ∈ b.nms := by
  simp only [nms, lv, inn, Multiset.mem_add, Multiset.mem_singleton]
  tauto

theorem nms_node {new : Bool} {n : Nm} {s : List Nm} {a b : PTree} : (node new n s a b).nms = {n} + (a.nms + b.nms) := by
  simp only [nms, lv, inn]
  abel

/-- Nothing is changed if the name does not occur. -/
theorem set_none {n : Nm} {x y t : PTree} (h : n ∉ t.nms) : setChildren n x y t = t := by
  induction t with
  | leaf m s =>
    rw [setChildren, if_neg]
    rintro rfl
    exact h (by simp [nms, lv])
  | node new m s a b iha ihb =>
    rw [mem_nms_node, not_or, not_or] at h
    rw [setChildren, if_neg (fun hc => h.1 hc.2.symm), iha h.2.1, ihb h.2.2]

/-- A node around a place in a tree. -/
structure Frame where
  new : Bool
  name : Nm
  subs : List Nm
  sib : PTree
  left : Bool

/-- A tree in the place of a frame. -/
def Frame.fill (f : Frame) (t : PTree) : PTree := if f.left then node f.new f.name f.subs t f.sib else node f.new f.name f.subs f.sib t

/-- A tree in a place, given by the nodes around it from the inside. -/
def plug : List Frame → PTree → PTree
  | [], t => t
  | f :: c, t => plug c (f.fill t)

/-- The names of the initial tensors around a place. -/
def lvC (c : List Frame) : Multiset Nm := (c.map fun f => f.sib.lv).sum

/-- The names of the steps around a place. -/
def innC (c : List Frame) : Multiset Nm := (c.map fun f => {f.name} + f.sib.inn).sum

/-- The names around a place. -/
def nmsC (c : List Frame) : Multiset Nm := (c.map fun f => {f.name} + f.sib.nms).sum

theorem fill_lv (f : Frame) (t : PTree) : (f.fill t).lv = f.sib.lv + t.lv := by
  unfold Frame.fill
  split
  · simp only [lv]
    abel
  · rfl

theorem fill_inn (f : Frame) (t : PTree) : (f.fill t).inn = {f.name} + f.sib.inn + t.inn := by
  unfold Frame.fill
  split <;> simp only [inn] <;> abel

theorem fill_name (f : Frame) (t : PTree) : (f.fill t).name = f.name := by
  unfold Frame.fill
  split <;> rfl

theorem plug_lv (c : List Frame) (t : PTree) : (plug c t).lv = lvC c + t.lv := by
  induction c generalizing t with
  | nil => simp [plug, lvC]
  | cons f c ih =>
    rw [plug, ih, fill_lv, lvC, lvC, List.map_cons, List.sum_cons]
    abel

theorem plug_inn (c : List Frame) (t : PTree) : (plug c t).inn = innC c + t.inn := by
  induction c generalizing t with
  | nil => simp [plug, innC]
  | cons f c ih =>
    rw [plug, ih, fill_inn, innC, innC, List.map_cons, List.sum_cons]
    abel

theorem nmsC_eq (c : List Frame) : nmsC c = lvC c + innC c := by
  induction c with
  | nil => rfl
  | cons f c ih =>
    simp only [nmsC, lvC, innC, List.map_cons, List.sum_cons] at ih ⊢
    rw [ih, nms]
    abel

theorem plug_nms (c : List Frame) (t : PTree) : (plug c t).nms = nmsC c + t.nms := by
  rw [nms, plug_lv, plug_inn, nmsC_eq, nms]
  abel

theorem plug_name (c : List Frame) {t t' : PTree} (h : t'.name = t.name) : (plug c t').name = (plug c t).name := by
  induction c generalizing t t' with
  | nil => exact h
  | cons f c ih => exact ih (by rw [fill_name, fill_name])

theorem plug_append (c c' : List Frame) (t : PTree) : plug (c ++ c') t = plug c' (plug c t) := by
  induction c generalizing t with
  | nil => rfl
  | cons f c ih => exact ih _

/-- A change below a place. -/
theorem set_plug {c : List Frame} {n : Nm} {x y t : PTree} (h : n ∉ nmsC c) : setChildren n x y (plug c t) = plug c (setChildren n x y t) := by
  induction c generalizing t with
  | nil => rfl
  | cons f c ih =>
    simp only [nmsC, List.map_cons, List.sum_cons, Multiset.mem_add, Multiset.mem_singleton, not_or] at h
    rw [plug, plug, ih h.2]
    congr 1
    unfold Frame.fill
    have hn : ¬ (f.new = false ∧ f.name = n) := fun hc => h.1.1 hc.2.symm
    split
    · rw [setChildren, if_neg hn, set_none (t := f.sib) h.1.2]
    · rw [setChildren, if_neg hn, set_none (t := f.sib) h.1.2]

theorem Same.plug (c : List Frame) {t t' : PTree} (h : Same t t') : Same (plug c t) (plug c t') :=
  ⟨by rw [plug_lv, plug_lv, h.lv], by rw [plug_inn, plug_inn, h.inn], plug_name c h.name⟩

theorem plug_old {c : List Frame} {t : PTree} (h : (plug c t).Old) : t.Old := by
  induction c generalizing t with
  | nil => exact h
  | cons f c ih =>
    have := ih h
    unfold Frame.fill at this
    split at this
    · exact this.2.1
    · exact this.2.2

/-- contraction_tree.py:117-128: where the stem begins. -/
theorem info_spec {T : Nat} {t r : PTree} {c1 c2 : Chain} (h : t.info T = some (r, c1, c2)) :
    ∃ c new n s a b, t = plug c r ∧ r = node new n s a b ∧ c1 = ⟨a, a.subs, a.chain T⟩ ∧ c2 = ⟨b, b.subs, b.chain T⟩ := by
  induction t with
  | leaf n s => simp [info] at h
  | node new n s a b iha ihb =>
    rw [info] at h
    split at h
    · simp only [Option.some.injEq, Prod.mk.injEq] at h
      obtain ⟨rfl, rfl, rfl⟩ := h
      exact ⟨[], new, n, s, a, b, rfl, rfl, rfl, rfl⟩
    · split at h
      · rename_i x hx
        rw [Option.some.injEq] at h
        subst h
        obtain ⟨c, k1, k2, k3, k4, k5, k6, k7⟩ := iha hx
        refine ⟨c ++ [⟨new, n, s, b, true⟩], k1, k2, k3, k4, k5, ?_, k7⟩
        rw [plug_append, ← k6]
        rfl
      · obtain ⟨c, k1, k2, k3, k4, k5, k6, k7⟩ := ihb h
        refine ⟨c ++ [⟨new, n, s, a, false⟩], k1, k2, k3, k4, k5, ?_, k7⟩
        rw [plug_append, ← k6]
        rfl

/-- The stem has no side branch that would be read as part of the stem, too: one with at least `T` indices that is no
initial tensor. -/
def Linear (T : Nat) : PTree → Prop
  | leaf _ _ => True
  | node _ _ s a b => T ≤ s.length → a.chain T = [] ∧ b.Linear T

end PTree

open PTree

/-- The entries of a chain are the branches of a stem. -/
inductive Chained : PTree → List Br → Prop
  | nil (t : PTree) : Chained t []
  | cons {new : Bool} {n : Nm} {s : List Nm} {e : Br} {es : List Br} (h : Chained e.stem es) : Chained (.node new n s e.branch e.stem) (e :: es)

theorem PTree.Linear.chained {T : Nat} {t : PTree} (h : t.Linear T) : Chained t (t.chain T) := by
  induction t with
  | leaf n s => exact .nil _
  | node new n s a b iha ihb =>
    rw [chain]
    split
    · rename_i hT
      obtain ⟨h1, h2⟩ := h hT
      rw [h1, List.nil_append]
      exact .cons (e := ⟨a, _, _, b⟩) (ihb h2)
    · exact .nil _

/-- The rest of the stem after the last entry. -/
def lastStem (t : PTree) (es : List Br) : PTree := (es.getLast?.map Br.stem).getD t

theorem lastStem_cons (t : PTree) (e : Br) (es : List Br) : lastStem t (e :: es) = lastStem e.stem es := by
  unfold lastStem
  rw [List.getLast?_cons]
  cases es.getLast? <;> rfl

theorem Chained.lv {t : PTree} {es : List Br} (h : Chained t es) : t.lv = (es.map fun e => e.branch.lv).sum + (lastStem t es).lv := by
  induction h with
  | nil t => simp [lastStem]
  | cons h ih =>
    rw [lastStem_cons, PTree.lv, ih, List.map_cons, List.sum_cons]
    abel

theorem Chained.inn {t : PTree} {es : List Br} (h : Chained t es) :
    t.inn + {(lastStem t es).name} = {t.name} + (es.map fun e => e.branch.inn).sum + (es.map fun e => e.stem.name : Multiset Nm) + (lastStem t es).inn := by
  induction h with
  | nil t => simp [lastStem, add_comm]
  | @cons new n s e es h ih =>
    rw [lastStem_cons, PTree.inn, List.map_cons, List.sum_cons, List.map_cons, PTree.name, add_assoc, add_assoc, ih, ← Multiset.cons_coe, ← Multiset.singleton_add]
    abel

/-- The trees of a chain are made of the names of its first tree. -/
theorem Chained.sub {t : PTree} {es : List Br} (h : Chained t es) : ∀ e ∈ es, e.branch.nms ≤ t.nms ∧ e.stem.nms ≤ t.nms := by
  induction h with
  | nil t => simp
  | @cons new n s e es h ih =>
    intro e' he'
    have h1 : e.branch.nms ≤ (PTree.node new n s e.branch e.stem).nms := by
      rw [nms_node]
      exact (Multiset.le_add_right _ _).trans (Multiset.le_add_left _ _)
    have h2 : e.stem.nms ≤ (PTree.node new n s e.branch e.stem).nms := by
      rw [nms_node]
      exact (Multiset.le_add_left _ _).trans (Multiset.le_add_left _ _)
    rcases List.mem_cons.1 he' with rfl | he'
    · exact ⟨h1, h2⟩
    · exact ⟨(ih e' he').1.trans h2, (ih e' he').2.trans h2⟩

/-- A chain whose trees are not changed. -/
theorem Chain.upd_self {c : Chain} (h : Chained c.head c.tail) {f : PTree → PTree} (hf : ∀ t : PTree, t.nms ≤ c.head.nms → f t = t) : c.upd f = c := by
  unfold Chain.upd
  rw [hf _ (le_refl _)]
  have : (c.tail.map fun e => (⟨f e.branch, e.both, e.out, f e.stem⟩ : Br)) = c.tail := by
    conv_rhs => rw [← List.map_id c.tail]
    refine List.map_congr_left fun e he => ?_
    rw [hf _ (h.sub e he).1, hf _ (h.sub e he).2]
    rfl
  rw [this]

end Verif
