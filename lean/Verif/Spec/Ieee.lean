import Verif.Model.ProductFloat
import Verif.Props.C56

/-!
# What is asked of the platform when results are rounded
-/
namespace Tfhe
open Fft

/-- The floats: 53 bits and an exponent.  The range of the exponent is unbounded. -/
def IsFloat (x : ℝ) : Prop := ∃ m s : ℤ, |m| ≤ 2 ^ 53 ∧ x = m * 2 ^ s

/-- What is asked of the platform: as for `Accurate`; results are floats, and a result that is a float is not changed; sine and cosine
are off by at most `2^-51` for arguments up to 7; `int64(x)` is `x` if it fits, and for `x = 2^63` it is either `-2^63` (the vector and
scalar conversions of amd64) or `2^63 - 1` (saturation, as on arm64). -/
structure Ieee (M : Machine) : Prop extends Accurate M.toFloat64 where
  isFloat : ∀ x, IsFloat (M.fl x)
  exact : ∀ x, IsFloat x → M.fl x = x
  cos2 : ∀ θ, |θ| ≤ 7 → |(M.sincos θ).1 - Real.cos θ| ≤ 2⁻¹ ^ 51
  sin2 : ∀ θ, |θ| ≤ 7 → |(M.sincos θ).2 - Real.sin θ| ≤ 2⁻¹ ^ 51
  fit : ∀ z, -2 ^ 63 ≤ z → z < 2 ^ 63 → M.int64 z = z
  top : M.int64 (2 ^ 63) = -2 ^ 63 ∨ M.int64 (2 ^ 63) = 2 ^ 63 - 1

/-- The bound on the rounding error of an accumulation in the Fourier domain: `T` products of digits up to `D` with words, `n` operations
on the way.  Relative to the largest possible value, `T * N * D * 2^(w-1)`, about `2^-46` for every operation and every stage of the
transforms; 2 units more for the final rounding and for the conversion at the end of the range. -/
def fftErr (l w D T n : ℕ) : ℕ := T * (2 ^ (l + 4) * (2 ^ (w - 1) * D)) * (3 * (l + 3) + n + 4) * 1001 / (1000 * 2 ^ 46) + 2

end Tfhe
