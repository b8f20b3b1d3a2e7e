import Verif.Model.AsmFold
import Verif.Model.AsmPolyGo

/-!
# The transforms of the evaluator on a processor with AVX2 and FMA

Two or three kernels in sequence; what the registers hold when the next one starts is arbitrary.
-/
namespace Tfhe
namespace Asm

/-- `FwdFFTTo` on `uint32`; the lengths are not checked. math/poly/fft.go:13-18. -/
def fwdFFTTo32 (F : Fpu) (fpOut p tw : GoSlice) (g : Reg → BitVec 64) (y : Nat → Y) (g' : Reg → BitVec 64) (y' : Nat → Y)
    (m m' : Memory) : Prop :=
  ∃ m1, foldPolyTo32 F fpOut p g y m m1 ∧ fwdFFTInPlace F fpOut tw g' y' m1 m'

/-- `FwdFFTTo` on `uint64`; the lengths are not checked. math/poly/fft.go:13-18. -/
def fwdFFTTo64 (F : Fpu) (fpOut p tw : GoSlice) (g : Reg → BitVec 64) (y : Nat → Y) (g' : Reg → BitVec 64) (y' : Nat → Y)
    (m m' : Memory) : Prop :=
  ∃ m1, foldPolyTo64 F fpOut p g y m m1 ∧ fwdFFTInPlace F fpOut tw g' y' m1 m'

/-- What the kernels get from one call to the next. -/
structure Regs where
  g : Reg → BitVec 64
  y : Nat → Y

/-- `InvFFTToUnsafe` on `uint32`; `scale`, `q` and `qInv` are the values of `2/float64(len(coeffs))`, `e.q` and `1/e.q`.
math/poly/fft.go:169-175. -/
def invFFTToUnsafe32 (F : Fpu) (pOut fp twInv : GoSlice) (scale q qInv : BitVec 64) (r r' r'' : Regs) (m m' : Memory) : Prop :=
  ∃ m1 m2, invFFTInPlace F fp twInv scale r.g r.y m m1 ∧ floatModQInPlace F fp q qInv r'.g r'.y m1 m2 ∧
    unfoldPolyTo32 F pOut fp r''.g r''.y m2 m'

/-- `InvFFTToUnsafe` on `uint64`. math/poly/fft.go:169-175. -/
def invFFTToUnsafe64 (F : Fpu) (pOut fp twInv : GoSlice) (scale q qInv : BitVec 64) (r r' r'' : Regs) (m m' : Memory) : Prop :=
  ∃ m1 m2, invFFTInPlace F fp twInv scale r.g r.y m m1 ∧ floatModQInPlace F fp q qInv r'.g r'.y m1 m2 ∧
    unfoldPolyTo64 F pOut fp r''.g r''.y m2 m'

end Asm
end Tfhe
