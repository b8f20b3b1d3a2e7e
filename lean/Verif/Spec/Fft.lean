import Verif.Spec.Poly
import Verif.Spec.Vec
import Mathlib.Analysis.SpecialFunctions.Trigonometric.Basic

/-!
# Specification vocabulary for the transform
-/
namespace Tfhe
open Poly

/-- The value of a real polynomial at a complex number. -/
noncomputable def evalAt {N : ℕ} (z : ℂ) (p : Poly N ℝ) : ℂ := ∑ i : Fin N, (p i : ℂ) * z ^ (i : ℕ)

/-- The point that position `j` of a transform of rank `2^n` belongs to: `exp(πi (1 - 4 rev j) / 2^n)`, where `rev` reverses
`n - 1` bits. -/
noncomputable def fftPoint (n j : ℕ) : ℂ := Complex.exp (Real.pi * Complex.I * (1 - 4 * (bitRev (n - 1) j : ℂ)) / 2 ^ n)

/-- `fp` is the transform of `p`: position `j`, whose real part is stored at `8 * (j / 4) + j % 4` and whose imaginary part four
places later, holds the value of `p` at point `j`. -/
def IsFFT {n : ℕ} (fp : ℕ → ℝ) (p : Poly (2 ^ n) ℝ) : Prop :=
  ∀ j < 2 ^ n / 2, (⟨fp (8 * (j / 4) + j % 4), fp (8 * (j / 4) + j % 4 + 4)⟩ : ℂ) = evalAt (fftPoint n j) p

end Tfhe
