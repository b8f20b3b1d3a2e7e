import Verif.Model.Num
import Verif.Spec.Word
import Mathlib.Tactic.Ring
import Mathlib.Tactic.Linarith
import Mathlib.Algebra.Order.Ring.Nat

namespace Tfhe

theorem one_lt_two_pow_of_pos {w : Nat} (h : 0 < w) : 1 < 2 ^ w :=
  Nat.one_lt_two_pow (by omega)

theorem toNat_one_of_pos {w : Nat} (h : 0 < w) : (1#w).toNat = 1 := by
  simp [Nat.mod_eq_of_lt (one_lt_two_pow_of_pos h)]

/-- Closed form of `divRoundBits` on natural numbers. -/
theorem toNat_divRoundBits {w : Nat} (x : BitVec w) (b : Nat) (h : b < w) :
    (divRoundBits x b).toNat = (x.toNat + 2 ^ b / 2) / 2 ^ b := by
  have hx := x.isLt
  have hw1 : 1 < 2 ^ w := one_lt_two_pow_of_pos (by omega)
  have h1 : (1#w).toNat = 1 := toNat_one_of_pos (by omega)
  obtain ⟨k, rfl⟩ : ∃ k, w = b + (k + 1) := ⟨w - b - 1, by omega⟩
  have e1 : (((x <<< 1) >>> b) &&& 1#(b + (k + 1))).toNat = x.toNat * 2 / 2 ^ b % 2 := by
    rw [BitVec.toNat_and, h1, Nat.and_one_is_mod, BitVec.toNat_ushiftRight, BitVec.toNat_shiftLeft,
      Nat.shiftLeft_eq, Nat.shiftRight_eq_div_pow, Nat.pow_add, Nat.mod_mul_right_div_self,
      Nat.pow_succ 2 k, Nat.mod_mul_left_mod]
  have e2 : x.toNat / 2 ^ b + x.toNat * 2 / 2 ^ b % 2 = (x.toNat + 2 ^ b / 2) / 2 ^ b := by
    cases b with
    | zero => simp
    | succ b =>
      have hp : 0 < 2 ^ b := by positivity
      have : (2:Nat) ^ (b + 1) = 2 * 2 ^ b := by ring
      rw [this]
      rw [show x.toNat * 2 = 2 * x.toNat by ring, Nat.mul_div_mul_left _ _ (by norm_num),
        Nat.mul_div_cancel_left _ (by norm_num : 0 < 2)]
      rw [mul_comm 2 (2 ^ b), ← Nat.div_div_eq_div_mul, ← Nat.div_div_eq_div_mul,
        Nat.add_div_right _ hp]
      omega
  unfold divRoundBits
  rw [BitVec.toNat_add, e1, BitVec.toNat_ushiftRight, Nat.shiftRight_eq_div_pow, e2]
  apply Nat.mod_eq_of_lt
  cases b with
  | zero => simpa using hx
  | succ b =>
    have hp : 0 < 2 ^ b := by positivity
    apply Nat.div_lt_of_lt_mul
    have h3 : (2:Nat) ^ (b + 1) / 2 = 2 ^ b := by
      rw [pow_succ, Nat.mul_div_cancel _ (by norm_num)]
    rw [h3]
    have h4 : (2:Nat) ^ (b + 1) = 2 * 2 ^ b := by ring
    have h5 : (2:Nat) ^ (b + 1 + (k + 1)) = 2 ^ (b + 1) * 2 ^ (k + 1) := by ring
    have h6 : 1 ≤ (2:Nat) ^ (k + 1) := Nat.one_le_two_pow
    rw [h5] at hx ⊢
    generalize (2:Nat) ^ (k + 1) = K at *
    rw [h4] at hx ⊢
    generalize (2:Nat) ^ b = H at *
    have : H ≤ H * K := Nat.le_mul_of_pos_right _ h6
    have : H * K ≤ H * (H * K) := Nat.le_mul_of_pos_left _ hp
    nlinarith

theorem nearestTiesUp_iff (x b : Nat) (r : Nat) :
    NearestTiesUp x b r ↔ r = (x + 2 ^ b / 2) / 2 ^ b := by
  unfold NearestTiesUp
  cases b with
  | zero => simp; omega
  | succ b =>
    have h4 : (2:Nat) ^ (b + 1) = 2 * 2 ^ b := by ring
    have h4' : (2:Int) ^ (b + 1) = 2 * 2 ^ b := by ring
    have hp : 0 < 2 ^ b := by positivity
    have hc : ((2:Int) ^ b) = ((2 ^ b : Nat) : Int) := by push_cast; rfl
    rw [show ((((b+1 : Nat)) : Int)).toNat = b + 1 by omega, h4, h4', hc,
      Nat.mul_div_cancel_left _ (by norm_num : 0 < 2)]
    generalize 2 ^ b = H at *
    rw [eq_comm, Nat.div_eq_iff (by omega)]
    have hm : (r : Int) * (2 * (H : Int)) = ((r * (2 * H) : Nat) : Int) := by push_cast; ring
    rw [hm]
    generalize r * (2 * H) = M
    omega

end Tfhe
