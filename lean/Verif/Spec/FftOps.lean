import Verif.Model.FftOps
import Verif.Spec.Fft

/-!
# Specification vocabulary for operations in the Fourier domain
-/
namespace Tfhe
open Fft Poly

/-- `fp` is the transform of `p` up to `δ`: as `IsFFT`, with every complex number off by at most `δ`. -/
def NearFFT {n : ℕ} (δ : ℝ) (fp : ℕ → ℝ) (p : Poly (2 ^ n) ℝ) : Prop :=
  ∀ j < 2 ^ n / 2, ‖(⟨fp (8 * (j / 4) + j % 4), fp (8 * (j / 4) + j % 4 + 4)⟩ : ℂ) - evalAt (fftPoint n j) p‖ ≤ δ

/-- The sum of the absolute values of the coefficients. -/
noncomputable def l1 {N : ℕ} (p : Poly N ℝ) : ℝ := ∑ i, |p i|

/-- The rounding of the platform has relative error at most `u`. -/
def RoundsTo (F : Float64) (u : ℝ) : Prop := 0 ≤ u ∧ u ≤ 1 ∧ ∀ x, |F.fl x - x| ≤ u * |x|

/-- A platform that does not round, with the true sine and cosine. -/
noncomputable def noRounding : Float64 := ⟨id, .none, fun θ => (Real.cos θ, Real.sin θ)⟩

/-- The polynomial with the coefficients in a slice. -/
def ofSlice (N : ℕ) {R : Type} (f : ℕ → R) : Poly N R := fun i => f i

/-- The polynomial with the words of the slice `p` as coefficients, read as signed numbers. -/
def signedOf (N : ℕ) {w : ℕ} (p : ℕ → BitVec w) : Poly N ℝ := ofSlice N fun i => ((p i).toInt : ℝ)

section
variable {w N : ℕ} [NeZero N]

/-- What an operation computes, from the old contents of the output and from the arguments, over any ring of coefficients; `cst` and
`word` read constants and words as coefficients.  A complex constant `a + bi` is the polynomial `a + b X^(N/2)`, whose value at every
point of the transform is that constant. -/
def Fft.FOp.over {R : Type} [CommRing R] (op : FOp w) (cst : ℝ → R) (word : BitVec w → R) (o x y : Poly N R) : Poly N R :=
  match op with
  | .add => x + y
  | .sub => x - y
  | .neg => -x
  | .floatMul c => C N (cst c) * x
  | .floatMulAdd c => o + C N (cst c) * x
  | .floatMulSub c => o - C N (cst c) * x
  | .cmplxMul c => (C N (cst c.1) + C N (cst c.2) * mono N R (N / 2 : ℕ)) * x
  | .cmplxMulAdd c => o + (C N (cst c.1) + C N (cst c.2) * mono N R (N / 2 : ℕ)) * x
  | .cmplxMulSub c => o - (C N (cst c.1) + C N (cst c.2) * mono N R (N / 2 : ℕ)) * x
  | .mul => x * y
  | .mulAdd => o + x * y
  | .mulSub => o - x * y
  | .polyMul p => ofSlice N (fun i => word (p i)) * x
  | .polyMulAdd p => o + ofSlice N (fun i => word (p i)) * x
  | .polyMulSub p => o - ofSlice N (fun i => word (p i)) * x
  | .fwdAdd p => o + ofSlice N (fun i => word (p i))
  | .fwdSub p => o - ofSlice N (fun i => word (p i))
  | .permute d => subst d x
  | .permuteAdd d => o + subst d x
  | .permuteSub d => o - subst d x
  | .permuteInPlace d => subst d o

/-- The operation on real polynomials. -/
noncomputable def Fft.FOp.val (op : FOp w) (o x y : Poly N ℝ) : Poly N ℝ := op.over id (fun z => (z.toInt : ℝ)) o x y

/-- The operation on polynomials of words, for constants that are integers. -/
noncomputable def Fft.FOp.wval (op : FOp w) (o x y : Poly N (BitVec w)) : Poly N (BitVec w) :=
  op.over (fun c => BitVec.ofInt w ⌊c⌋) id o x y

/-- The constants of the operation are integers. -/
def Fft.FOp.integral : FOp w → Prop
  | .floatMul c | .floatMulAdd c | .floatMulSub c => (⌊c⌋ : ℝ) = c
  | .cmplxMul c | .cmplxMulAdd c | .cmplxMulSub c => (⌊c.1⌋ : ℝ) = c.1 ∧ (⌊c.2⌋ : ℝ) = c.2
  | _ => True

/-- The exponent of a permutation. -/
def Fft.FOp.exponent : FOp w → Option ℤ
  | .permute d | .permuteAdd d | .permuteSub d | .permuteInPlace d => some d
  | _ => none

/-- The polynomial that the operation transforms. -/
def Fft.FOp.poly : FOp w → Option (ℕ → BitVec w)
  | .polyMul p | .polyMulAdd p | .polyMulSub p | .fwdAdd p | .fwdSub p => some p
  | _ => none

/-- Permutations from one vector to another need different vectors. -/
def Fft.FOp.apart : FOp w → Prop
  | .permute _ | .permuteAdd _ | .permuteSub _ => True
  | _ => False

/-- The old contents of the output matter. -/
def Fft.FOp.usesOut : FOp w → Prop
  | .floatMulAdd _ | .floatMulSub _ | .cmplxMulAdd _ | .cmplxMulSub _ | .mulAdd | .mulSub | .polyMulAdd _ | .polyMulSub _ | .fwdAdd _
  | .fwdSub _ | .permuteAdd _ | .permuteSub _ | .permuteInPlace _ => True
  | _ => False
/-- The first argument matters. -/
def Fft.FOp.usesX : FOp w → Prop
  | .fwdAdd _ | .fwdSub _ | .permuteInPlace _ => False
  | _ => True
/-- The second argument matters. -/
def Fft.FOp.usesY : FOp w → Prop
  | .add | .sub | .mul | .mulAdd | .mulSub => True
  | _ => False

/-- The error of the result, when the transforms of polynomials are off by `δf`, and the old contents of the output and the arguments
by `δo`, `δx` and `δy`. -/
noncomputable def Fft.FOp.err (u δf : ℝ) (op : FOp w) (o x y : Poly N ℝ) (δo δx δy : ℝ) : ℝ :=
  match op with
  | .add | .sub => δx + δy + u * (l1 x + δx + (l1 y + δy))
  | .neg | .permute _ => δx
  | .permuteInPlace _ => δo
  | .floatMul c => |c| * δx + u * (|c| * (l1 x + δx))
  | .floatMulAdd c | .floatMulSub c => δo + |c| * δx + 3 * u * (l1 o + δo + |c| * (l1 x + δx))
  | .cmplxMul c => ‖(⟨c.1, c.2⟩ : ℂ)‖ * δx + 6 * u * ((l1 x + δx) * ‖(⟨c.1, c.2⟩ : ℂ)‖)
  | .cmplxMulAdd c | .cmplxMulSub c =>
    δo + ‖(⟨c.1, c.2⟩ : ℂ)‖ * δx + 15 * u * (l1 o + δo + (l1 x + δx) * ‖(⟨c.1, c.2⟩ : ℂ)‖)
  | .mul => l1 x * δy + δx * (l1 y + δy) + 6 * u * ((l1 x + δx) * (l1 y + δy))
  | .mulAdd | .mulSub => δo + (l1 x * δy + δx * (l1 y + δy)) + 15 * u * (l1 o + δo + (l1 x + δx) * (l1 y + δy))
  | .polyMul p => l1 x * δf + δx * (l1 (signedOf N p) + δf) + 6 * u * ((l1 x + δx) * (l1 (signedOf N p) + δf))
  | .polyMulAdd p | .polyMulSub p =>
    δo + (l1 x * δf + δx * (l1 (signedOf N p) + δf)) + 15 * u * (l1 o + δo + (l1 x + δx) * (l1 (signedOf N p) + δf))
  | .fwdAdd p | .fwdSub p => δo + δf + u * (l1 o + δo + (l1 (signedOf N p) + δf))
  | .permuteAdd _ | .permuteSub _ => δo + δx + u * (l1 o + δo + (l1 x + δx))
end

end Tfhe
