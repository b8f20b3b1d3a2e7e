import Verif.Model.Fft

/-!
# The transforms with a butterfly of its own in the stage with neighbours

`fwdFFTInPlace` and `invFFTInPlace` use one butterfly throughout; the assembly uses another one for neighbours.
-/
namespace Tfhe.Fft

variable {F : Type}

/-- `fwdFFTInPlace` with the butterfly `B`, and `B1` in the last loop.  math/poly/asm_fft.go:15-85. -/
def fwdFFTStages (B B1 : F → F → F → F → F → F → F × F × F × F) (N : ℕ) (x : ℕ → F) (tw : ℕ → F × F) : ℕ → F :=
  let s := (bfRow B x 0 (N / 2) (tw 0), 1)
  let s := fwdMid B tw N N 2 (N / 2) s
  let s := bfStage2 B tw N s
  (bfStage1 B1 tw N s).1

/-- `invFFTInPlace` with the butterfly `B`, and `B1` in the first loop.  math/poly/asm_fft.go:96-186. -/
def invFFTStages (B B1 : F → F → F → F → F → F → F × F × F × F) (scale : F → F) (N : ℕ) (x : ℕ → F) (twInv : ℕ → F × F) : ℕ → F :=
  let s := bfStage1 B1 twInv N (x, 0)
  let s := bfStage2 B twInv N s
  let s := invMid B twInv N (N / 16) 8 s
  let y := bfRow B s.1 0 (N / 2) (twInv s.2)
  fun j => if j < N then scale (y j) else y j

theorem fwdFFTStages_self (B : F → F → F → F → F → F → F × F × F × F) : fwdFFTStages B B = fwdFFTWith B := rfl
theorem invFFTStages_self (B : F → F → F → F → F → F → F × F × F × F) : invFFTStages B B = invFFTWith B := rfl

end Tfhe.Fft
