import Mathlib.Algebra.Order.Field.Rat
import Mathlib.Algebra.Order.Floor.Ring
import Mathlib.Data.Rat.Floor
import Mathlib.Tactic.Linarith
import Verif.Model.Asm

/-!
# Values of `float64` bit patterns, and what IEEE 754 says about operations on them

The format is written down from the standard (binary64), independently of any program.
-/
namespace Tfhe
namespace Asm

/-- Biased exponent of the pattern `x`. -/
def f64Exp (x : BitVec 64) : Nat := x.toNat / 2 ^ 52 % 2 ^ 11

/-- Fraction bits of the pattern `x`. -/
def f64Frac (x : BitVec 64) : Nat := x.toNat % 2 ^ 52

/-- The pattern `x` is a number; otherwise it is an infinity or a NaN. -/
def f64Finite (x : BitVec 64) : Prop := f64Exp x ≠ 2047

/-- Absolute value of the number `x`. -/
def f64Abs (x : BitVec 64) : ℚ :=
  if f64Exp x = 0 then (f64Frac x : ℚ) * 2 ^ (-1074 : ℤ)
  else ((2 ^ 52 + f64Frac x : ℕ) : ℚ) * 2 ^ ((f64Exp x : ℤ) - 1075)

/-- The number `x`. -/
def f64Val (x : BitVec 64) : ℚ := if x.msb then -f64Abs x else f64Abs x

/-- The rational numbers that are numbers of the format. -/
def F64Rep (v : ℚ) : Prop := ∃ M j : ℤ, |M| < 2 ^ 53 ∧ -1074 ≤ j ∧ j ≤ 971 ∧ v = M * 2 ^ j

/-- `k` is the integer nearest to `v`; of two it is the even one. -/
def NearestEven (v : ℚ) (k : ℤ) : Prop := |v - k| ≤ 1 / 2 ∧ (|v - k| = 1 / 2 → Even k)

/-- The operations `F` of the processor round their exact results with `rnd`, a monotone function that leaves the numbers of
the format alone. (`rnd` is round-to-nearest-even; nothing else about it is used.) -/
structure IeeeFpu (F : Fpu) (rnd : ℚ → ℚ) : Prop where
  mono : ∀ v w, v ≤ w → rnd v ≤ rnd w
  exact : ∀ v, F64Rep v → rnd v = v
  add : ∀ x y, f64Finite x → f64Finite y → |f64Val x + f64Val y| ≤ 2 ^ (1023 : ℤ) →
    f64Finite (F.add x y) ∧ f64Val (F.add x y) = rnd (f64Val x + f64Val y)
  sub : ∀ x y, f64Finite x → f64Finite y → |f64Val x - f64Val y| ≤ 2 ^ (1023 : ℤ) →
    f64Finite (F.sub x y) ∧ f64Val (F.sub x y) = rnd (f64Val x - f64Val y)
  mul : ∀ x y, f64Finite x → f64Finite y → |f64Val x * f64Val y| ≤ 2 ^ (1023 : ℤ) →
    f64Finite (F.mul x y) ∧ f64Val (F.mul x y) = rnd (f64Val x * f64Val y)
  rne : ∀ x, f64Finite x → f64Finite (F.rne x) ∧ ∃ k : ℤ, NearestEven (f64Val x) k ∧ f64Val (F.rne x) = k
  ofI32 : ∀ x : BitVec 32, f64Finite (F.ofI32 x) ∧ f64Val (F.ofI32 x) = x.toInt
  toI32 : ∀ x (k : ℤ), f64Finite x → f64Val x = k → F.toI32 x = if -2 ^ 31 ≤ k ∧ k < 2 ^ 31 then BitVec.ofInt 32 k else 0x80000000

end Asm
end Tfhe
