import Verif.Model.PrintOrder
import Verif.Props.FlipOrder
/-! # C79: `print_order` describes every step as a batched matrix product -/

namespace Verif

namespace PTree

/-- The number of initial tensors of a tree. -/
def leaves : PTree → Nat
  | leaf _ _ => 1
  | node _ _ _ a b => a.leaves + b.leaves

/-- The steps of a tree in the order in which they are carried out, read off the tree: for every inner node its two children and itself. -/
def steps : PTree → List (PTree × PTree × PTree)
  | leaf _ _ => []
  | node new n s a b => b.steps ++ a.steps ++ [(a, b, node new n s a b)]

/-- Every index of an initial tensor occurs outside of it. -/
def Attached : (Nm → Prop) → PTree → Prop
  | ext, leaf _ s => ∀ e ∈ s, ext e
  | ext, node _ _ _ a b => a.Attached (fun e => ext e ∨ e ∈ b.inds) ∧ b.Attached fun e => ext e ∨ e ∈ a.inds

theorem linesFrom_eq (order : List OrderStep) : ∀ (subs : List SubStep) (i : Nat), i + subs.length ≤ order.length →
    linesFrom order i subs = some ((subs.zip (order.drop i)).map fun p => lineOf p.1 p.2)
  | [], _, _ => by simp [linesFrom]
  | x :: xs, i, h => by
    simp only [List.length_cons] at h
    rw [linesFrom, List.getElem?_eq_getElem (by omega)]
    dsimp only
    rw [linesFrom_eq order xs (i + 1) (by omega), List.drop_eq_getElem_cons (show i < order.length by omega)]
    rfl

theorem fullSubs_eq : ∀ t : PTree, t.fullSubs = t.steps.map fun p => ⟨p.1.subs, p.2.1.subs, p.2.2.subs⟩
  | leaf _ _ => rfl
  | node _ _ _ a b => by
    simp only [fullSubs, steps, fullSubs_eq a, fullSubs_eq b, List.map_append]
    rfl

theorem fullOrder_eq : ∀ t : PTree, t.fullOrder = t.steps.map fun p => ([p.1.name, p.2.1.name], p.2.2.name)
  | leaf _ _ => rfl
  | node _ _ _ a b => by
    simp only [fullOrder, steps, fullOrder_eq a, fullOrder_eq b, List.map_append]
    rfl

/-- **C79.** `print_order` does not raise; its lines are the steps in order, each with the names of its own tensors. -/
theorem c79_lines (t : PTree) : ∃ ls, t.printOrder = some ls ∧
    ls.map Line.step = t.steps.map (fun p => ([p.1.name, p.2.1.name], p.2.2.name)) ∧
    ls.map Line.sub = t.steps.map (fun p => ⟨p.1.subs, p.2.1.subs, p.2.2.subs⟩) ∧
    ls = t.steps.map fun p => lineOf ⟨p.1.subs, p.2.1.subs, p.2.2.subs⟩ ([p.1.name, p.2.1.name], p.2.2.name) := by
  have h : t.printOrder = some (t.steps.map fun p => lineOf ⟨p.1.subs, p.2.1.subs, p.2.2.subs⟩ ([p.1.name, p.2.1.name], p.2.2.name)) := by
    unfold printOrder
    rw [linesFrom_eq _ _ _ (by simp [fullSubs_eq, fullOrder_eq]), List.drop_zero, fullSubs_eq, fullOrder_eq, List.zip_map', List.map_map]
    rfl
  exact ⟨_, h, by simp [lineOf, Function.comp_def], by simp [lineOf, Function.comp_def], rfl⟩

theorem setMinus_card (x y : List Nm) : (setMinus x y).length = (x.toFinset \ y.toFinset).card := by
  unfold setMinus
  rw [← List.card_toFinset]
  congr 1
  ext e
  simp

theorem setMeet_card (x y : List Nm) : (setMeet x y).length = (x.toFinset ∩ y.toFinset).card := by
  unfold setMeet
  rw [← List.card_toFinset]
  congr 1
  ext e
  simp

theorem toFinset_setMeet (x y : List Nm) : (setMeet x y).toFinset = x.toFinset ∩ y.toFinset := by
  ext e
  simp [setMeet]

/-- **C79.** The numbers of a line: `a` and `b` count the indices of one tensor only, `c` and `d` those of both, summed and kept;
`a + c + d` and `c + b + d` are the numbers of indices of the tensors, and the number in front that of all indices. -/
theorem c79_numbers (x : SubStep) (o : OrderStep) :
    (lineOf x o).a = (x.fst.toFinset \ x.snd.toFinset).card ∧ (lineOf x o).b = (x.snd.toFinset \ x.fst.toFinset).card ∧
    (lineOf x o).c = ((x.fst.toFinset ∩ x.snd.toFinset) \ x.out.toFinset).card ∧
    (lineOf x o).d = (x.fst.toFinset ∩ x.snd.toFinset ∩ x.out.toFinset).card ∧
    (lineOf x o).a + (lineOf x o).c + (lineOf x o).d = x.fst.toFinset.card ∧
    (lineOf x o).c + (lineOf x o).b + (lineOf x o).d = x.snd.toFinset.card ∧
    (lineOf x o).a + (lineOf x o).b + (lineOf x o).c + (lineOf x o).d = (x.fst.toFinset ∪ x.snd.toFinset).card := by
  have ha : (lineOf x o).a = (x.fst.toFinset \ x.snd.toFinset).card := setMinus_card _ _
  have hb : (lineOf x o).b = (x.snd.toFinset \ x.fst.toFinset).card := setMinus_card _ _
  have hc : (lineOf x o).c = ((x.fst.toFinset ∩ x.snd.toFinset) \ x.out.toFinset).card := by
    show (setMinus _ _).length = _
    rw [setMinus_card, toFinset_setMeet, Finset.inter_comm]
  have hd : (lineOf x o).d = (x.fst.toFinset ∩ x.snd.toFinset ∩ x.out.toFinset).card := by
    show (setMeet _ _).length = _
    rw [setMeet_card, toFinset_setMeet, Finset.inter_comm x.snd.toFinset]
  have h1 := Finset.card_sdiff_add_card_inter (x.fst.toFinset ∩ x.snd.toFinset) x.out.toFinset
  have h2 := Finset.card_sdiff_add_card_inter x.fst.toFinset x.snd.toFinset
  have h3 := Finset.card_sdiff_add_card_inter x.snd.toFinset x.fst.toFinset
  have h4 := Finset.card_union_add_card_inter x.fst.toFinset x.snd.toFinset
  rw [Finset.inter_comm x.snd.toFinset] at h3
  exact ⟨ha, hb, hc, hd, by omega, by omega, by omega⟩

theorem mem_subs {ext : Nm → Prop} {t : PTree} (hx : t.Exact ext) (ha : t.Attached ext) (e : Nm) : e ∈ t.subs ↔ e ∈ t.inds ∧ ext e := by
  cases t with
  | leaf n s => exact ⟨fun h => ⟨h, ha e h⟩, fun h => h.1⟩
  | node new n s a b => simpa [inds, subs] using hx.1 e

/-- **C79.** In a tree whose results have exactly the indices seen from outside, and without indices that occur in one initial tensor only,
every line describes a batched matrix product: the result has the `a + b + d` indices that are printed for it.

Full statement: for all trees of `from_order`.  It fails for an edge on one tensor only that is not open (`c79_dangling_violated`). -/
theorem c79_product_partial : ∀ {t : PTree} {ext : Nm → Prop}, t.Exact ext → t.Attached ext → ∀ p ∈ t.steps, ∀ o : OrderStep,
    let l := lineOf ⟨p.1.subs, p.2.1.subs, p.2.2.subs⟩ o
    l.a + l.b + l.d = p.2.2.subs.toFinset.card
  | leaf _ _, _, _, _, p, hp, _ => by simp [steps] at hp
  | node new n s a b, ext, hx, hat, p, hp, o => by
    simp only [steps, List.mem_append, List.mem_singleton] at hp
    rcases hp with (hp | hp) | rfl
    · exact c79_product_partial hx.2.2 hat.2 p hp o
    · exact c79_product_partial hx.2.1 hat.1 p hp o
    · intro l
      obtain ⟨h1, h2, -, h4, -⟩ := c79_numbers ⟨a.subs, b.subs, (node new n s a b).subs⟩ o
      have ma := mem_subs hx.2.1 hat.1
      have mb := mem_subs hx.2.2 hat.2
      have ms := hx.1
      have e1 : (node new n s a b).subs.toFinset = (a.subs.toFinset \ b.subs.toFinset) ∪ (b.subs.toFinset \ a.subs.toFinset) ∪
          (a.subs.toFinset ∩ b.subs.toFinset ∩ (node new n s a b).subs.toFinset) := by
        ext e
        simp only [Finset.mem_union, Finset.mem_sdiff, Finset.mem_inter, List.mem_toFinset, ma, mb]
        show e ∈ s ↔ (_ ∨ _) ∨ (_ ∧ e ∈ s)
        rw [ms]
        tauto
      show l.a + l.b + l.d = (node new n s a b).subs.toFinset.card
      rw [e1, Finset.card_union_of_disjoint, Finset.card_union_of_disjoint]
      · show (lineOf _ _).a + (lineOf _ _).b + (lineOf _ _).d = _
        rw [h1, h2, h4]
      · exact Finset.disjoint_left.2 fun e he hf => by
          simp only [Finset.mem_sdiff] at he hf
          exact hf.2 he.1
      · exact Finset.disjoint_left.2 fun e he hf => by
          simp only [Finset.mem_union, Finset.mem_sdiff, Finset.mem_inter] at he hf
          tauto

/-- **C79.** The numbers in front of the lines are the binary logarithms of the multiplications that `total_cost` counts. -/
theorem c79_cost : ∀ t : PTree, ∃ ls, t.printOrder = some ls ∧
    t.totalCost.s = (ls.map fun l => 2 ^ (l.a + l.b + l.c + l.d)).sum + t.leaves := by
  intro t
  obtain ⟨ls, h, -, -, rfl⟩ := c79_lines t
  refine ⟨_, h, ?_⟩
  clear h
  rw [(c72_cost t).1, List.map_map]
  induction t with
  | leaf n s => rfl
  | node new n s a b iha ihb =>
    have hn := (c79_numbers ⟨a.subs, b.subs, s⟩ ([a.name, b.name], n)).2.2.2.2.2.2
    dsimp only at hn
    simp only [parts, steps, List.map_cons, List.map_append, List.sum_cons, List.sum_append, iha, ihb, leaves, List.map_nil, List.sum_nil,
      Function.comp_apply, opsOf]
    rw [show (node new n s a b).subs = s from rfl, show (node new n s a b).name = n from rfl, hn]
    omega

/-- **C79** for a tree read off an order by `from_order`. -/
theorem c79_from_order_partial {τ : Type} [NetTensor τ] {perm : List Nm → List Nm} {D : Nm → Nat} (hperm : ∀ l, (perm l).Perm l) {tn : TN τ}
    {order : List OrderStep} (hc : tn.Consistent) (hl : tn.Loose D) (hx : NoFix tn) (hv : ValidOrder tn.nodes.keys order (.str "#"))
    (h2 : Pairwise2 order) (hs : SingleAssignment tn.nodes.keys order) {t : PTree} (h : fromOrder perm tn order = some t)
    (ha : t.Attached (· ∈ tn.openE)) : ∃ ls, t.printOrder = some ls ∧ ∀ l ∈ ls, l.a + l.b + l.d = l.sub.out.toFinset.card := by
  obtain ⟨ls, h1, -, -, rfl⟩ := c79_lines t
  refine ⟨_, h1, fun l hl' => ?_⟩
  obtain ⟨p, hp, rfl⟩ := List.mem_map.1 hl'
  exact c79_product_partial (c72_from_order hperm hc hl hx hv h2 hs h) ha p hp _

/-- A tree of three tensors with a batch index (4), which is open. -/
def printCase : PTree :=
  node false (.str "#") [.int 0, .int 3, .int 4] (leaf (.str "a") [.int 0, .int 1, .int 4])
    (node false (.str "m") [.int 1, .int 3, .int 4] (leaf (.str "b") [.int 1, .int 2, .int 4]) (leaf (.str "c") [.int 2, .int 3, .int 4]))

/-- The hypotheses of C79 are met, and the lines of this tree. -/
example : printCase.Exact (· ∈ [Nm.int 0, .int 3, .int 4]) ∧ printCase.Attached (· ∈ [Nm.int 0, .int 3, .int 4]) ∧
    (printCase.printOrder.map fun ls => ls.map fun l => (l.a, l.b, l.c, l.d)) = some [(1, 1, 1, 1), (1, 1, 1, 1)] := by
  refine ⟨⟨fun e => ?_, trivial, fun e => ?_, trivial, trivial⟩, by simp [printCase, Attached, inds], by decide +kernel⟩
  · simp only [inds, List.mem_cons, List.mem_append, List.not_mem_nil]
    constructor
    · rintro (rfl | rfl | rfl | h) <;> simp_all
    · tauto
  · simp only [inds, List.mem_cons, List.not_mem_nil]
    constructor
    · rintro (rfl | rfl | rfl | h) <;> simp_all
    · rintro ⟨(rfl | rfl | rfl | h) | (rfl | rfl | rfl | h), h'⟩ <;> simp_all

/-- The full form of C79 fails: for an index (0) of one tensor that is summed at once, the line says that the result has it. -/
theorem c79_dangling_violated : ∃ (t : PTree) (ls : List Line), t.Exact (fun _ => False) ∧ t.printOrder = some ls ∧
    ∃ l ∈ ls, l.a + l.b + l.d = 1 ∧ l.sub.out = [] :=
  ⟨node false (.str "#") [] (leaf (.str "a") [.int 1]) (leaf (.str "b") [.int 0, .int 1]), _, ⟨fun e => by simp, trivial, trivial⟩, rfl,
    _, List.mem_singleton.2 rfl, by decide, rfl⟩

end PTree

end Verif
