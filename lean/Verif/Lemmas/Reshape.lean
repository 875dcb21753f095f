import Verif.Model.Kraus
import Verif.Spec.Kraus
import Mathlib.Tactic.Ring
/-!
# Reshaping arrays
-/

namespace Verif

theorem binary_foldl (bs : List Nat) (n : Nat) : bs.foldl (fun n b => 2 * n + b) n = n * 2 ^ bs.length + binary bs := by
  unfold binary
  induction bs generalizing n with
  | nil => simp
  | cons b bs ih =>
    rw [List.foldl_cons, List.foldl_cons, ih, ih (2 * 0 + b), List.length_cons, pow_succ]
    ring

theorem binary_cons (b : Nat) (bs : List Nat) : binary (b :: bs) = b * 2 ^ bs.length + binary bs := by
  unfold binary
  rw [List.foldl_cons, binary_foldl]
  simp [binary]

theorem binary_append (as bs : List Nat) : binary (as ++ bs) = binary as * 2 ^ bs.length + binary bs := by
  unfold binary
  rw [List.foldl_append, binary_foldl]
  rfl

theorem binary_lt {bs : List Nat} {n : Nat} (h : Bits bs n) : binary bs < 2 ^ n := by
  obtain ⟨rfl, h⟩ := h
  induction bs with
  | nil => simp [binary]
  | cons b bs ih =>
    rw [binary_cons, List.length_cons, pow_succ]
    have h1 := h b (by simp)
    have h2 := ih fun b hb => h b (by simp [hb])
    have : b * 2 ^ bs.length ≤ 1 * 2 ^ bs.length := Nat.mul_le_mul_right _ (by omega)
    omega

theorem offset_bits : ∀ (n : Nat) {bs : List Nat}, Bits bs n → offset (List.replicate n 2) bs = binary bs
  | 0, [], _ => rfl
  | n + 1, b :: bs, h => by
    have hb : Bits bs n := ⟨by simpa using h.1, fun b hb => h.2 b (by simp [hb])⟩
    rw [List.replicate_succ, offset, offset_bits n hb, binary_cons, hb.1, List.prod_replicate]
  | 0, _ :: _, h => by simp [Bits] at h
  | _ + 1, [], h => by simp [Bits] at h

theorem unoffset_bits : ∀ (n : Nat) {bs : List Nat}, Bits bs n → unoffset (List.replicate n 2) (binary bs) = bs
  | 0, [], _ => rfl
  | n + 1, b :: bs, h => by
    have hb : Bits bs n := ⟨by simpa using h.1, fun b hb => h.2 b (by simp [hb])⟩
    have hlt := binary_lt hb
    rw [List.replicate_succ, unoffset, binary_cons, hb.1, List.prod_replicate, Nat.mul_comm b, Nat.mul_add_div (Nat.pow_pos (by omega)), Nat.mul_add_mod,
      Nat.mod_eq_of_lt hlt, Nat.div_eq_of_lt hlt, unoffset_bits n hb, Nat.add_zero]
  | 0, _ :: _, h => by simp [Bits] at h
  | _ + 1, [], h => by simp [Bits] at h

theorem unoffset_vec (A x : Nat) : unoffset [A] x = [x] := by
  simp [unoffset]

theorem unoffset_pair {A B x y : Nat} (h : y < B) : unoffset [A, B] (x * B + y) = [x, y] := by
  have hB : 0 < B := by omega
  simp only [unoffset, List.prod_cons, List.prod_nil, Nat.mul_one, Nat.div_one]
  rw [Nat.mul_comm x, Nat.mul_add_div hB, Nat.mul_add_mod, Nat.mod_eq_of_lt h, Nat.div_eq_of_lt h, Nat.add_zero]

variable {R : Type}

/-- Reshaping keeps the entries in the order of the memory. -/
theorem reshape_bits {a : Arr R} {n : Nat} (h : a.shape.prod = 2 ^ n) : ∃ b, a.reshape (List.replicate n 2) = .ok b ∧
    b.shape = List.replicate n 2 ∧ ∀ idx, Bits idx n → b.get idx = a.get (unoffset a.shape (binary idx)) := by
  refine ⟨⟨List.replicate n 2, fun idx => a.get (unoffset a.shape (offset (List.replicate n 2) idx))⟩, ?_, rfl, fun idx hi => ?_⟩
  · unfold Arr.reshape
    rw [if_pos (by rw [h, List.prod_replicate])]
  · show a.get _ = _
    rw [offset_bits n hi]

theorem reshape_error {a : Arr R} {n : Nat} (h : a.shape.prod ≠ 2 ^ n) : a.reshape (List.replicate n 2) = .error .value := by
  unfold Arr.reshape
  rw [if_neg (by rw [List.prod_replicate]; exact h)]

/-- An array with one axis per qubit stays as it is. -/
theorem unoffset_self {a : Arr R} {n : Nat} (h : a.shape = List.replicate n 2) {idx : List Nat} (hi : Bits idx n) :
    a.get (unoffset a.shape (binary idx)) = a.get idx := by rw [h, unoffset_bits n hi]

/-- The rows and columns of a matrix are numbered in binary. -/
theorem unoffset_matrix {a : Arr R} {m n : Nat} (h : a.shape = [2 ^ m, 2 ^ n]) {o i : List Nat} (hi : Bits i n) :
    a.get (unoffset a.shape (binary (o ++ i))) = a.get [binary o, binary i] := by
  rw [h, binary_append, hi.1, unoffset_pair (binary_lt hi)]

end Verif
