import Verif.Spec.Operation
import Verif.Lemmas.Tot
import Verif.Props.Adjoint
/-!
# Lemmas on the shapes of operations
-/

set_option linter.unusedSectionVars false

namespace Verif

/-! ### Places -/

theorem zipIdx_eq {A : Type} (d : A) (s : List A) : s.zipIdx = (List.range s.length).map fun k => (s[k]?.getD d, k) := by
  apply List.ext_getElem?
  intro k
  rw [List.getElem?_zipIdx, List.getElem?_map]
  by_cases hk : k < s.length
  · simp [hk]
  · simp [hk]

theorem indicesWith_eq (P : List Letter → Bool) (s : List (List Letter)) : indicesWith P s = places (fun w => P w = true) s := by
  unfold indicesWith places
  rw [zipIdx_eq [] s, List.filter_map, List.map_map]
  rw [show (Prod.snd ∘ fun k => (s[k]?.getD [], k)) = id from rfl, List.map_id]
  refine List.filter_congr fun k _ => ?_
  simp

theorem mem_places {P : List Letter → Prop} [DecidablePred P] {s : List (List Letter)} {k : Nat} :
    k ∈ places P s ↔ ∃ w, s[k]? = some w ∧ P w := by
  unfold places
  rw [List.mem_filter, List.mem_range, decide_eq_true_eq]
  constructor
  · rintro ⟨h1, h2⟩
    rw [List.getElem?_eq_getElem h1] at h2
    exact ⟨_, List.getElem?_eq_getElem h1, h2⟩
  · rintro ⟨w, h1, h2⟩
    rw [h1]
    exact ⟨(List.getElem?_eq_some_iff.1 h1).1, h2⟩

theorem places_nodup (P : List Letter → Prop) [DecidablePred P] (s : List (List Letter)) : (places P s).Nodup :=
  List.nodup_range.filter _

theorem places_congr {P Q : List Letter → Prop} [DecidablePred P] [DecidablePred Q] {s : List (List Letter)}
    (h : ∀ w ∈ s, P w ↔ Q w) : places P s = places Q s := by
  unfold places
  refine List.filter_congr fun k hk => decide_eq_decide.2 ?_
  have hk := List.mem_range.1 hk
  rw [List.getElem?_eq_getElem hk]
  exact h _ (List.getElem_mem hk)

theorem places_flip {P Q : List Letter → Prop} [DecidablePred P] [DecidablePred Q] {s : List (List Letter)}
    (h : ∀ w ∈ s, P (w.reverse.map Letter.flip) ↔ Q w) : places P (flipShape s) = places Q s := by
  unfold places flipShape
  rw [List.length_map]
  refine List.filter_congr fun k hk => decide_eq_decide.2 ?_
  have hk := List.mem_range.1 hk
  rw [List.getElem?_map, List.getElem?_eq_getElem hk]
  exact h _ (List.getElem_mem hk)

theorem isOut_flip (w : List Letter) : IsOut (w.reverse.map Letter.flip) ↔ IsIn w := by
  unfold IsOut IsIn
  rw [flipWord_letters]
  exact flipWord_last _

theorem isIn_flip (w : List Letter) : IsIn (w.reverse.map Letter.flip) ↔ IsOut w := by
  unfold IsOut IsIn
  rw [flipWord_letters]
  exact flipWord_head _

theorem Letter.flip_flip (l : Letter) : l.flip.flip = l := by cases l <;> rfl

theorem flip_eq_c (w : List Letter) : w.reverse.map Letter.flip = [.c] ↔ w = [.c] := by
  constructor
  · intro h
    have := congrArg (fun l : List Letter => (l.map Letter.flip).reverse) h
    simp only [List.map_map, Function.comp_def, Letter.flip_flip, List.map_id', List.reverse_reverse, List.map_cons, List.map_nil,
      List.reverse_cons, List.reverse_nil, List.nil_append] at this
    exact this
  · rintro rfl; rfl

theorem flipShape_flipShape (s : List (List Letter)) : flipShape (flipShape s) = s := by
  unfold flipShape
  rw [List.map_map]
  conv_rhs => rw [← List.map_id s]
  refine List.map_congr_left fun w _ => ?_
  simp [← List.map_reverse, List.map_map, Function.comp_def, Letter.flip_flip]

theorem outPlaces_flip (s : List (List Letter)) : outPlaces (flipShape s) = inPlaces s := places_flip fun w _ => isOut_flip w
theorem inPlaces_flip (s : List (List Letter)) : inPlaces (flipShape s) = outPlaces s := places_flip fun w _ => isIn_flip w
theorem ctrlPlaces_flip (s : List (List Letter)) : ctrlPlaces (flipShape s) = ctrlPlaces s := places_flip fun w _ => flip_eq_c w

theorem indicesWith_endsOut (s : List (List Letter)) : indicesWith Letter.endsOut s = outPlaces s := by
  rw [indicesWith_eq]
  exact places_congr fun w _ => endsOut_iff w

theorem indicesWith_startsIn (s : List (List Letter)) : indicesWith Letter.startsIn s = inPlaces s := by
  rw [indicesWith_eq]
  exact places_congr fun w _ => startsIn_iff w

theorem outQubits_length {s : List (List Letter)} {qs : List Int} (hl : s.length = qs.length) (hn : qs.Nodup) :
    (outQubits s qs).length = (outPlaces s).length := by
  have h1 := (indicesWith_get hl Letter.endsOut).length_eq
  rw [filter_ports hl hn _ (fun w => w.getLast? = some .out) fun w => by
    rw [Bool.eq_iff_iff, endsOut_iff, decide_eq_true_eq]] at h1
  rw [← indicesWith_endsOut, h1]; rfl

theorem inQubits_length {s : List (List Letter)} {qs : List Int} (hl : s.length = qs.length) (hn : qs.Nodup) :
    (inQubits s qs).length = (inPlaces s).length := by
  have h1 := (indicesWith_get hl Letter.startsIn).length_eq
  rw [filter_ports hl hn _ (fun w => w.head? = some .inp) fun w => by
    rw [Bool.eq_iff_iff, startsIn_iff, decide_eq_true_eq]] at h1
  rw [← indicesWith_startsIn, h1]; rfl

/-! ### Words over the letters `i`, `o` and `c` -/

/-- The strings of a `PureOperation`. -/
def PlainWord (w : List Letter) : Prop := ∀ l ∈ w, l = .i ∨ l = .o

/-- The strings of a `ControlledOperation`. -/
def CtrlWord (w : List Letter) : Prop := w = [.c] ∨ PlainWord w

theorem PlainWord.flip {w : List Letter} (h : PlainWord w) : PlainWord (w.reverse.map Letter.flip) := by
  intro l hl
  obtain ⟨l', hl', rfl⟩ := List.mem_map.1 hl
  rcases h l' (List.mem_reverse.1 hl') with rfl | rfl
  · exact Or.inr rfl
  · exact Or.inl rfl

theorem CtrlWord.flip {w : List Letter} (h : CtrlWord w) : CtrlWord (w.reverse.map Letter.flip) := by
  rcases h with rfl | h
  · exact Or.inl rfl
  · exact Or.inr h.flip

theorem endsO_plain {w : List Letter} (h : PlainWord w) : Letter.endsO w = true ↔ IsOut w := by
  unfold IsOut
  rw [← endsOut_iff]
  unfold Letter.endsO Letter.endsOut
  cases hl : w.getLast? with
  | none => simp
  | some l => rcases h l (List.mem_of_getLast? hl) with rfl | rfl <;> simp

theorem startsI_plain {w : List Letter} (h : PlainWord w) : Letter.startsI w = true ↔ IsIn w := by
  unfold IsIn
  rw [← startsIn_iff]
  unfold Letter.startsI
  cases w with
  | nil => simp [Letter.startsIn]
  | cons l w => rcases h l (by simp) with rfl | rfl <;> simp [Letter.startsIn]

theorem plain_ne_c {w : List Letter} (h : PlainWord w) : w ≠ [.c] := by
  rintro rfl
  rcases h .c (by simp) with h | h <;> cases h

theorem endsO_ctrl {w : List Letter} (h : CtrlWord w) : Letter.endsO w = true ↔ IsOut w ∧ w ≠ [.c] := by
  rcases h with rfl | h
  · simp [Letter.endsO]
  · rw [endsO_plain h]; exact ⟨fun h' => ⟨h', plain_ne_c h⟩, And.left⟩

theorem startsI_ctrl {w : List Letter} (h : CtrlWord w) : Letter.startsI w = true ↔ IsIn w ∧ w ≠ [.c] := by
  rcases h with rfl | h
  · simp [Letter.startsI]
  · rw [startsI_plain h]; exact ⟨fun h' => ⟨h', plain_ne_c h⟩, And.left⟩

theorem places_and_not {P Q : List Letter → Prop} [DecidablePred P] [DecidablePred Q] (s : List (List Letter)) :
    places (fun w => P w ∧ ¬ Q w) s = (places P s).filter (· ∉ places Q s) := by
  unfold places
  rw [List.filter_filter]
  refine List.filter_congr fun k hk => ?_
  have hk := List.mem_range.1 hk
  have : k ∈ (List.range s.length).filter (fun k => decide (Q (s[k]?.getD []))) ↔ Q (s[k]?.getD []) := by
    rw [List.mem_filter]; simp [hk]
  rw [Bool.eq_iff_iff]
  simp only [decide_eq_true_eq, Bool.and_eq_true, this]
  exact And.comm

theorem indicesWith_isC (s : List (List Letter)) : indicesWith Letter.isC s = ctrlPlaces s := by
  rw [indicesWith_eq]
  exact places_congr fun w _ => by simp [Letter.isC]

theorem indicesWith_endsO {s : List (List Letter)} (h : ∀ w ∈ s, CtrlWord w) :
    indicesWith Letter.endsO s = (outPlaces s).filter (· ∉ ctrlPlaces s) := by
  rw [indicesWith_eq, outPlaces, ctrlPlaces, ← places_and_not]
  exact places_congr fun w hw => endsO_ctrl (h w hw)

theorem indicesWith_startsI {s : List (List Letter)} (h : ∀ w ∈ s, CtrlWord w) :
    indicesWith Letter.startsI s = (inPlaces s).filter (· ∉ ctrlPlaces s) := by
  rw [indicesWith_eq, inPlaces, ctrlPlaces, ← places_and_not]
  exact places_congr fun w hw => startsI_ctrl (h w hw)

theorem indicesWith_endsO_plain {s : List (List Letter)} (h : ∀ w ∈ s, PlainWord w) :
    indicesWith Letter.endsO s = outPlaces s := by
  rw [indicesWith_eq]
  exact places_congr fun w hw => endsO_plain (h w hw)

theorem indicesWith_startsI_plain {s : List (List Letter)} (h : ∀ w ∈ s, PlainWord w) :
    indicesWith Letter.startsI s = inPlaces s := by
  rw [indicesWith_eq]
  exact places_congr fun w hw => startsI_plain (h w hw)

theorem ctrlPlaces_sub {s : List (List Letter)} {k : Nat} (h : k ∈ ctrlPlaces s) : k ∈ outPlaces s ∧ k ∈ inPlaces s := by
  obtain ⟨w, h1, rfl⟩ := mem_places.1 h
  exact ⟨mem_places.2 ⟨_, h1, rfl⟩, mem_places.2 ⟨_, h1, rfl⟩⟩

theorem mapM_ok {A B : Type} {f : A → Except Err B} {g : A → B} {l : List A} (h : ∀ a ∈ l, f a = .ok (g a)) :
    l.mapM f = .ok (l.map g) := by
  induction l with
  | nil => rfl
  | cons a l ih => rw [List.mapM_cons, h a (by simp), ih fun b hb => h b (by simp [hb])]; rfl

theorem flipPure_ok {s : List (List Letter)} (h : ∀ w ∈ s, PlainWord w) : Oper.flipPure s = .ok (flipShape s) := by
  unfold Oper.flipPure flipShape
  refine mapM_ok fun w hw => mapM_ok fun l hl => ?_
  rcases h w hw l (List.mem_reverse.1 hl) with rfl | rfl <;> rfl

theorem flipCtrl_ok {s : List (List Letter)} (h : ∀ w ∈ s, CtrlWord w) : Oper.flipCtrl s = .ok (flipShape s) := by
  unfold Oper.flipCtrl flipShape
  refine mapM_ok fun w hw => mapM_ok fun l hl => ?_
  rcases h w hw with rfl | h
  · simp only [List.reverse_cons, List.reverse_nil, List.nil_append, List.mem_singleton] at hl
    subst hl; rfl
  · rcases h l (List.mem_reverse.1 hl) with rfl | rfl <;> rfl

/-! ### Assignments -/

section Read

variable {K : Type} [DecidableEq K]

theorem readAt_map {ks : List K} {f : K → Nat} {z : List Nat} {k : K} (hk : k ∈ ks) : readAt ks (ks.map f ++ z) k = f k := by
  unfold readAt
  have h := List.idxOf_lt_length_iff.2 hk
  rw [List.getElem?_append_left (by simpa using h), List.getElem?_map, List.getElem?_eq_getElem h, List.getElem_idxOf]
  rfl

theorem readAt_map' {ks : List K} {f : K → Nat} {k : K} (hk : k ∈ ks) : readAt ks (ks.map f) k = f k := by
  have := readAt_map (f := f) (z := []) hk
  rwa [List.append_nil] at this

theorem map_readAt {ks : List K} (hn : ks.Nodup) {x : List Nat} (hl : ks.length ≤ x.length) :
    ks.map (readAt ks x) = x.take ks.length := by
  apply List.ext_getElem?
  intro k
  rw [List.getElem?_map, List.getElem?_take]
  by_cases hk : k < ks.length
  · rw [List.getElem?_eq_getElem hk, if_pos hk, List.getElem?_eq_getElem (by omega)]
    simp only [Option.map_some, readAt, hn.idxOf_getElem]
    rw [List.getElem?_eq_getElem (by omega)]; rfl
  · rw [List.getElem?_eq_none (by omega), if_neg hk]; rfl

theorem readAt_bits {ks : List K} {x : List Nat} (h : ∀ b ∈ x, b < 2) (k : K) : readAt ks x k < 2 := by
  unfold readAt
  cases hx : x[ks.idxOf k]? with
  | none => simp
  | some b => exact h b (List.mem_of_getElem? hx)

theorem Bits.split {x : List Nat} {n m : Nat} (h : Bits x (n + m)) : Bits (x.take n) n ∧ Bits (x.drop n) m := by
  refine ⟨⟨?_, fun b hb => h.2 b (List.mem_of_mem_take hb)⟩, ⟨?_, fun b hb => h.2 b (List.mem_of_mem_drop hb)⟩⟩
  · rw [List.length_take, h.1]; omega
  · rw [List.length_drop, h.1]; omega

theorem Bits.append {x y : List Nat} {n m : Nat} (h : Bits x n) (h' : Bits y m) : Bits (x ++ y) (n + m) :=
  ⟨by rw [List.length_append, h.1, h'.1], fun b hb => (List.mem_append.1 hb).elim (h.2 b) (h'.2 b)⟩

theorem Bits.inRange {x : List Nat} {n : Nat} (h : Bits x n) : InRange (List.replicate n 2) x := by
  obtain ⟨rfl, h2⟩ := h
  induction x with
  | nil => exact List.Forall₂.nil
  | cons b x ih =>
    rw [List.length_cons, List.replicate_succ]
    exact List.Forall₂.cons (h2 b (by simp)) (ih fun b hb => h2 b (by simp [hb]))

end Read

theorem replicate_some (n : Nat) : (List.replicate n (some 2) : List (Option Nat)) = (List.replicate n 2).map some := by simp

theorem addNode_named {τ : Type} [HasShape τ] (n : Nm) (es : Option (List Nm)) (t : τ) (o : Bool) :
    ({} : TN τ).addNode (some n) n es t o = ({} : TN τ).addNode none n es t o := by
  unfold TN.addNode
  simp [TN.nameTaken, Dict.has]

end Verif
