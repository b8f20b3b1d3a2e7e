import Verif.Spec.Word
import Mathlib.Tactic.Ring
import Mathlib.Tactic.Linarith
import Mathlib.Algebra.Order.Ring.Nat
import Mathlib.Algebra.Order.Group.Unbundled.Int
import Mathlib.Algebra.BigOperators.Group.Finset.Basic
import Mathlib.Algebra.Order.BigOperators.Group.Finset

/-! Helper lemmas on torus words. -/

namespace Tfhe
variable {w : Nat}

theorem bv_ofNat_eq_cast (n : Nat) : BitVec.ofNat w n = (n : BitVec w) := rfl

theorem bv_ofInt_eq_cast (n : Int) : BitVec.ofInt w n = (n : BitVec w) := rfl

theorem bv_toNat_cast (n : Nat) : ((n : BitVec w)).toNat = n % 2 ^ w := by
  rw [← bv_ofNat_eq_cast]; simp

theorem bv_cast_toNat (x : BitVec w) : ((x.toNat : Nat) : BitVec w) = x := by
  rw [← bv_ofNat_eq_cast]; simp

theorem bv_cast_toInt (x : BitVec w) : ((x.toInt : Int) : BitVec w) = x := by
  rw [← bv_ofInt_eq_cast]; simp

theorem bv_toInt_cast (z : Int) : ((z : BitVec w)).toInt = z.bmod (2 ^ w) := by
  rw [← bv_ofInt_eq_cast]; simp

theorem shl_eq (x : BitVec w) (n : Nat) : x <<< n = x * 2 ^ n := by
  apply BitVec.eq_of_toNat_eq
  rw [BitVec.toNat_shiftLeft, Nat.shiftLeft_eq, BitVec.toNat_mul]
  have : ((2 : BitVec w) ^ n) = ((2 ^ n : Nat) : BitVec w) := by push_cast; rfl
  rw [this, bv_toNat_cast]
  simp

theorem two_pow_self : (2 : BitVec w) ^ w = 0 := by
  have : ((2 : BitVec w) ^ w) = ((2 ^ w : Nat) : BitVec w) := by push_cast; rfl
  rw [this]
  apply BitVec.eq_of_toNat_eq
  rw [bv_toNat_cast]; simp

/-- The centred representative is the smallest: any integer representing the word bounds `wabs`. -/
theorem wabs_cast_le (z : Int) : wabs (z : BitVec w) ≤ z.natAbs := by
  unfold wabs
  rw [bv_toInt_cast]
  rcases Nat.eq_zero_or_pos w with h | h
  · subst h; simp [Int.bmod_one]
  · have h2 : (2:Nat) ^ w = 2 * 2 ^ (w - 1) := by
      rw [← pow_succ']; congr 1; omega
    rw [h2]
    have hp : 0 < 2 ^ (w - 1) := by positivity
    generalize 2 ^ (w - 1) = m at *
    unfold Int.bmod
    simp only
    have e := Int.emod_add_mul_ediv z ((2 * m : Nat) : Int)
    have r0 := Int.emod_nonneg z (b := ((2 * m : Nat) : Int)) (by omega)
    have r1 := Int.emod_lt_of_pos z (b := ((2 * m : Nat) : Int)) (by omega)
    generalize hr : z % ((2 * m : Nat) : Int) = r at *
    generalize hq : z / ((2 * m : Nat) : Int) = q at *
    split
    · -- r < (2m+1)/2
      rcases lt_trichotomy q 0 with hq | hq | hq
      · have : ((2 * m : Nat) : Int) * q ≤ - ((2 * m : Nat) : Int) := by nlinarith
        omega
      · subst hq; simp at e; omega
      · have : ((2 * m : Nat) : Int) ≤ ((2 * m : Nat) : Int) * q := by nlinarith
        omega
    · rcases lt_trichotomy q 0 with hq | hq | hq
      · have : ((2 * m : Nat) : Int) * q ≤ - ((2 * m : Nat) : Int) := by nlinarith
        omega
      · subst hq; simp at e; omega
      · have : ((2 * m : Nat) : Int) ≤ ((2 * m : Nat) : Int) * q := by nlinarith
        omega

@[simp] theorem wabs_zero : wabs (0 : BitVec w) = 0 := by
  have := wabs_cast_le (w := w) 0
  simpa using this

@[simp] theorem wabs_zero' : wabs (0#w) = 0 := wabs_zero

theorem wabs_neg (x : BitVec w) : wabs (-x) = wabs x := by
  have h : ∀ y : BitVec w, wabs (-y) ≤ wabs y := by
    intro y
    have := wabs_cast_le (w := w) (-y.toInt)
    rw [Int.cast_neg, bv_cast_toInt, Int.natAbs_neg] at this
    exact this
  apply le_antisymm (h x)
  have := h (-x)
  rwa [neg_neg] at this

theorem wabs_add_le (x y : BitVec w) : wabs (x + y) ≤ wabs x + wabs y := by
  have := wabs_cast_le (w := w) (x.toInt + y.toInt)
  rw [Int.cast_add, bv_cast_toInt, bv_cast_toInt] at this
  exact this.trans (Int.natAbs_add_le _ _)

theorem wabs_sub_le (x y : BitVec w) : wabs (x - y) ≤ wabs x + wabs y := by
  rw [sub_eq_add_neg, ← wabs_neg y]
  exact wabs_add_le _ _

theorem wabs_mul_le (x y : BitVec w) : wabs (x * y) ≤ wabs x * wabs y := by
  have := wabs_cast_le (w := w) (x.toInt * y.toInt)
  rw [Int.cast_mul, bv_cast_toInt, bv_cast_toInt, Int.natAbs_mul] at this
  exact this

theorem wabs_sum_le {ι : Type*} (s : Finset ι) (f : ι → BitVec w) :
    wabs (∑ i ∈ s, f i) ≤ ∑ i ∈ s, wabs (f i) := by
  classical
  induction s using Finset.induction_on with
  | empty => simp
  | insert a s ha ih =>
    rw [Finset.sum_insert ha, Finset.sum_insert ha]
    exact (wabs_add_le _ _).trans (by omega)

theorem wabs_le_half (x : BitVec w) : 2 * wabs x ≤ 2 ^ w := by
  unfold wabs
  have h1 := BitVec.two_mul_toInt_lt (x := x)
  have h2 := BitVec.le_two_mul_toInt (x := x)
  have : ((2:Int) ^ w) = ((2 ^ w : Nat) : Int) := by push_cast; rfl
  rw [this] at h1 h2
  omega

end Tfhe
