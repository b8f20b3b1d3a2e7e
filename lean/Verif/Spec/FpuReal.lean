import Mathlib.Data.Real.Basic
import Verif.Model.FftFloat
import Verif.Spec.Float64

/-!
# Results of the processor that are neither too large nor too small, and runs in which all of them are

The values of the operations of the AVX2 kernels: the exact result, rounded.
-/
namespace Tfhe
namespace Asm
open Fft

/-- `IeeeFpu`, for the fused operations too: the exact result is rounded once. -/
structure IeeeFma (F : Fpu) (rnd : ℚ → ℚ) : Prop extends IeeeFpu F rnd where
  fma : ∀ x y z, f64Finite x → f64Finite y → f64Finite z → |f64Val x * f64Val y + f64Val z| ≤ 2 ^ (1023 : ℤ) →
    f64Finite (F.fma x y z) ∧ f64Val (F.fma x y z) = rnd (f64Val x * f64Val y + f64Val z)
  fnma : ∀ x y z, f64Finite x → f64Finite y → f64Finite z → |f64Val z - f64Val x * f64Val y| ≤ 2 ^ (1023 : ℤ) →
    f64Finite (F.fnma x y z) ∧ f64Val (F.fnma x y z) = rnd (f64Val z - f64Val x * f64Val y)
  fms : ∀ x y z, f64Finite x → f64Finite y → f64Finite z → |f64Val x * f64Val y - f64Val z| ≤ 2 ^ (1023 : ℤ) →
    f64Finite (F.fms x y z) ∧ f64Val (F.fms x y z) = rnd (f64Val x * f64Val y - f64Val z)

/-- An exact result that neither overflows nor underflows: at most `2^1023`, and at least `2^-1022` unless it is a multiple of the
smallest positive number of the format. -/
def InRange (v : ℝ) : Prop := |v| ≤ 2 ^ (1023 : ℤ) ∧ (2 ^ (-1022 : ℤ) ≤ |v| ∨ ∃ k : ℤ, v = k * 2 ^ (-1074 : ℤ))

/-- At most `2^K`, and a multiple of `2^-g`. -/
def Dy (K g : ℤ) (v : ℝ) : Prop := |v| ≤ 2 ^ K ∧ ∃ n : ℤ, v = n * 2 ^ (-g)

/-- `fl` is the rounding of the processor, on results in range. -/
def RoundsAs (F : Fpu) (fl : ℝ → ℝ) : Prop := ∃ rnd : ℚ → ℚ, IeeeFma F rnd ∧ ∀ v : ℚ, InRange v → fl v = rnd v

/-- The pattern `x` is the number `r`. -/
def IsVal (x : BitVec 64) (r : ℝ) : Prop := f64Finite x ∧ (f64Val x : ℝ) = r

/-- The results in the evaluation of `x*y + s*(z*t)` are in range. -/
def fusedInRange (f : Fma) (fl : ℝ → ℝ) (s x y z t : ℝ) : Prop :=
  match f with
  | .none => InRange (x * y) ∧ InRange (z * t) ∧ InRange (fl (x * y) + s * fl (z * t))
  | .left => InRange (z * t) ∧ InRange (x * y + s * fl (z * t))
  | .right => InRange (x * y) ∧ InRange (fl (x * y) + s * (z * t))

/-- The results in the evaluation of `o + σ*(x*y + s*(z*t))`, one product after the other, are in range. -/
def accumInRange (swap : Bool) (fl : ℝ → ℝ) (s σ o x y z t : ℝ) : Prop :=
  if swap then InRange (o + σ * (s * (z * t))) ∧ InRange (fl (o + σ * (s * (z * t))) + σ * (x * y))
  else InRange (o + σ * (x * y)) ∧ InRange (fl (o + σ * (x * y)) + σ * (s * (z * t)))

/-- The results in a forward butterfly are in range. -/
def fwdInRange (f : Fma) (fl : ℝ → ℝ) (uR uI vR vI wR wI : ℝ) : Prop :=
  fusedInRange f fl (-1) vR wR vI wI ∧ fusedInRange f fl 1 vR wI vI wR ∧
    InRange (uR + fused f fl (-1) vR wR vI wI) ∧ InRange (uI + fused f fl 1 vR wI vI wR) ∧
    InRange (uR - fused f fl (-1) vR wR vI wI) ∧ InRange (uI - fused f fl 1 vR wI vI wR)

/-- The results in an inverse butterfly are in range. -/
def invInRange (f : Fma) (fl : ℝ → ℝ) (uR uI vR vI wR wI : ℝ) : Prop :=
  InRange (uR + vR) ∧ InRange (uI + vI) ∧ InRange (uR - vR) ∧ InRange (uI - vI) ∧
    fusedInRange f fl (-1) (fl (uR - vR)) wR (fl (uI - vI)) wI ∧ fusedInRange f fl 1 (fl (uR - vR)) wI (fl (uI - vI)) wR

/-- The butterfly `B` on numbers that carry the proposition that all results they depend on were in range. -/
def watch (S : ℝ → ℝ → ℝ → ℝ → ℝ → ℝ → Prop) (B : ℝ → ℝ → ℝ → ℝ → ℝ → ℝ → ℝ × ℝ × ℝ × ℝ)
    (uR uI vR vI wR wI : ℝ × Prop) : (ℝ × Prop) × (ℝ × Prop) × (ℝ × Prop) × (ℝ × Prop) :=
  let y := B uR.1 uI.1 vR.1 vI.1 wR.1 wI.1
  let p := uR.2 ∧ uI.2 ∧ vR.2 ∧ vI.2 ∧ wR.2 ∧ wI.2 ∧ S uR.1 uI.1 vR.1 vI.1 wR.1 wI.1
  ((y.1, p), (y.2.1, p), (y.2.2.1, p), (y.2.2.2, p))

/-- All results in the forward transform of `x` are in range. -/
def FwdInRange (fl : ℝ → ℝ) (N : ℕ) (x : ℕ → ℝ) (tw : ℕ → ℝ × ℝ) : Prop := ∀ j < N,
  (fwdFFTStages (watch (fwdInRange .right fl) (fwdButterflyFl (.ofFl .avx2 fl)))
    (watch (fwdInRange .left fl) (fwdButterflyFl (Arith.ofFl .avx2 fl).atNear)) N
    (fun i => (x i, True)) (fun i => (((tw i).1, True), ((tw i).2, True))) j).2

/-- All results in the inverse transform of `x` are in range. -/
def InvInRange (fl : ℝ → ℝ) (N : ℕ) (x : ℕ → ℝ) (tw : ℕ → ℝ × ℝ) : Prop := ∀ j < N,
  (invFFTStages (watch (invInRange .right fl) (invButterflyFl (.ofFl .avx2 fl)))
    (watch (invInRange .left fl) (invButterflyFl (Arith.ofFl .avx2 fl).atNear))
    (fun y => (fl (y.1 / ((N / 2 : ℕ) : ℝ)), y.2 ∧ InRange (y.1 / ((N / 2 : ℕ) : ℝ)))) N
    (fun i => (x i, True)) (fun i => (((tw i).1, True), ((tw i).2, True))) j).2

end Asm
end Tfhe
