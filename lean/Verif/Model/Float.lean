import Mathlib.Data.Int.Log
import Mathlib.Data.Rat.Floor
import Mathlib.Algebra.Order.Floor.Ring

/-!
# A model of `float64` arithmetic

A `float64` is a rational; the result of every operation is rounded to 53 significant bits, to
nearest, ties to even (IEEE 754, which Go prescribes for `float64`).  The exponent is unbounded: no
overflow, no subnormals, no NaN (the values in this library are between `2^-128` and `2^128`).
Go may fuse `x*y + z`; no modelled expression has this form.
-/
namespace Tfhe

/-- Nearest integer, ties to even. -/
def roundEven (x : ℚ) : ℤ :=
  if x - ⌊x⌋ < 1 / 2 then ⌊x⌋
  else if 1 / 2 < x - ⌊x⌋ then ⌊x⌋ + 1
  else if ⌊x⌋ % 2 = 0 then ⌊x⌋ else ⌊x⌋ + 1

/-- Exponent of the last bit of the 53-bit significand of `q`. -/
def ulpExp (q : ℚ) : ℤ := Int.log 2 |q| - 52

/-- Rounding to `float64`. -/
def fl (q : ℚ) : ℚ := if q = 0 then 0 else roundEven (q / 2 ^ ulpExp q) * 2 ^ ulpExp q

/-- `math.Round`: nearest integer, half away from zero. -/
def goRound (x : ℚ) : ℤ := if 0 ≤ x then ⌊x + 1 / 2⌋ else -⌊-x + 1 / 2⌋

/-- Conversion of a float to an unsigned word, `T(x)`, for an integral `x`; `none` when the value
does not fit (the result is then implementation-dependent in Go). -/
def toUint (w : ℕ) (x : ℤ) : Option ℕ := if 0 ≤ x ∧ x < 2 ^ w then some x.toNat else none

/-- `num.DivRound` on `w`-bit unsigned integers: `T(math.Round(float64(x) / float64(y)))`; `none`
for `y = 0` or when the quotient does not fit. math/num/num.go:128-130. -/
def divRound (w : ℕ) (x y : ℕ) : Option ℕ :=
  if y = 0 then none else toUint w (goRound (fl (fl x / fl y)))

end Tfhe
