import Verif.Model.AsmCmplx
import Verif.Model.AsmFft
import Verif.Model.AsmVecGo

/-!
# The Go functions that call the assembly of `math/poly`

`math/poly/asm_vec_cmplx_amd64.go` and `math/poly/asm_fft_amd64.go`, on a processor with AVX2 and FMA.  Neither file checks
lengths before the call.
-/
namespace Tfhe
namespace Asm

/-- `addCmplxTo` with AVX2. math/poly/asm_vec_cmplx_amd64.go:12-16. -/
def addCmplxTo (F : Fpu) (vOut v0 v1 : GoSlice) (g : Reg → BitVec 64) (y : Nat → Y) (m m' : Memory) : Prop :=
  Returns F addCmplxToAVX2 (vOut.arg ++ v0.arg ++ v1.arg) (entry g y m) m'
/-- `subCmplxTo` with AVX2. math/poly/asm_vec_cmplx_amd64.go:42-46. -/
def subCmplxTo (F : Fpu) (vOut v0 v1 : GoSlice) (g : Reg → BitVec 64) (y : Nat → Y) (m m' : Memory) : Prop :=
  Returns F subCmplxToAVX2 (vOut.arg ++ v0.arg ++ v1.arg) (entry g y m) m'
/-- `negCmplxTo` with AVX2. math/poly/asm_vec_cmplx_amd64.go:72-76. -/
def negCmplxTo (F : Fpu) (vOut v : GoSlice) (g : Reg → BitVec 64) (y : Nat → Y) (m m' : Memory) : Prop :=
  Returns F negCmplxToAVX2 (vOut.arg ++ v.arg) (entry g y m) m'
/-- `floatMulCmplxTo` with AVX2; `c` is a `float64`. math/poly/asm_vec_cmplx_amd64.go:100-104. -/
def floatMulCmplxTo (F : Fpu) (vOut v : GoSlice) (c : BitVec 64) (g : Reg → BitVec 64) (y : Nat → Y) (m m' : Memory) : Prop :=
  Returns F floatMulCmplxToAVX2 (vOut.arg ++ v.arg ++ word64 c) (entry g y m) m'
/-- `floatMulAddCmplxTo` with AVX2; `c` is a `float64`. math/poly/asm_vec_cmplx_amd64.go:128-132. -/
def floatMulAddCmplxTo (F : Fpu) (vOut v : GoSlice) (c : BitVec 64) (g : Reg → BitVec 64) (y : Nat → Y) (m m' : Memory) : Prop :=
  Returns F floatMulAddCmplxToAVX2 (vOut.arg ++ v.arg ++ word64 c) (entry g y m) m'
/-- `floatMulSubCmplxTo` with AVX2; `c` is a `float64`. math/poly/asm_vec_cmplx_amd64.go:156-160. -/
def floatMulSubCmplxTo (F : Fpu) (vOut v : GoSlice) (c : BitVec 64) (g : Reg → BitVec 64) (y : Nat → Y) (m m' : Memory) : Prop :=
  Returns F floatMulSubCmplxToAVX2 (vOut.arg ++ v.arg ++ word64 c) (entry g y m) m'
/-- `cmplxMulCmplxTo` with AVX2; `cR` and `cI` are the parts of the `complex128`. math/poly/asm_vec_cmplx_amd64.go:184-188. -/
def cmplxMulCmplxTo (F : Fpu) (vOut v : GoSlice) (cR cI : BitVec 64) (g : Reg → BitVec 64) (y : Nat → Y) (m m' : Memory) : Prop :=
  Returns F cmplxMulCmplxToAVX2 (vOut.arg ++ v.arg ++ (word64 cR ++ word64 cI)) (entry g y m) m'
/-- `cmplxMulAddCmplxTo` with AVX2; `cR` and `cI` are the parts of the `complex128`. math/poly/asm_vec_cmplx_amd64.go:221-225. -/
def cmplxMulAddCmplxTo (F : Fpu) (vOut v : GoSlice) (cR cI : BitVec 64) (g : Reg → BitVec 64) (y : Nat → Y) (m m' : Memory) : Prop :=
  Returns F cmplxMulAddCmplxToAVX2 (vOut.arg ++ v.arg ++ (word64 cR ++ word64 cI)) (entry g y m) m'
/-- `cmplxMulSubCmplxTo` with AVX2; `cR` and `cI` are the parts of the `complex128`. math/poly/asm_vec_cmplx_amd64.go:258-262. -/
def cmplxMulSubCmplxTo (F : Fpu) (vOut v : GoSlice) (cR cI : BitVec 64) (g : Reg → BitVec 64) (y : Nat → Y) (m m' : Memory) : Prop :=
  Returns F cmplxMulSubCmplxToAVX2 (vOut.arg ++ v.arg ++ (word64 cR ++ word64 cI)) (entry g y m) m'
/-- `mulCmplxTo` with AVX2. math/poly/asm_vec_cmplx_amd64.go:295-299. -/
def mulCmplxTo (F : Fpu) (vOut v0 v1 : GoSlice) (g : Reg → BitVec 64) (y : Nat → Y) (m m' : Memory) : Prop :=
  Returns F mulCmplxToAVX2 (vOut.arg ++ v0.arg ++ v1.arg) (entry g y m) m'
/-- `mulAddCmplxTo` with AVX2. math/poly/asm_vec_cmplx_amd64.go:332-336. -/
def mulAddCmplxTo (F : Fpu) (vOut v0 v1 : GoSlice) (g : Reg → BitVec 64) (y : Nat → Y) (m m' : Memory) : Prop :=
  Returns F mulAddCmplxToAVX2 (vOut.arg ++ v0.arg ++ v1.arg) (entry g y m) m'
/-- `mulSubCmplxTo` with AVX2. math/poly/asm_vec_cmplx_amd64.go:369-373. -/
def mulSubCmplxTo (F : Fpu) (vOut v0 v1 : GoSlice) (g : Reg → BitVec 64) (y : Nat → Y) (m m' : Memory) : Prop :=
  Returns F mulSubCmplxToAVX2 (vOut.arg ++ v0.arg ++ v1.arg) (entry g y m) m'

/-- `fwdFFTInPlace` with AVX2 and FMA. math/poly/asm_fft_amd64.go:19-23. -/
def fwdFFTInPlace (F : Fpu) (coeffs tw : GoSlice) (g : Reg → BitVec 64) (y : Nat → Y) (m m' : Memory) : Prop :=
  Returns F fwdFFTInPlaceAVX2 (coeffs.arg ++ tw.arg) (entry g y m) m'

/-- `invFFTInPlace` with AVX2 and FMA; `scale` is the value of `2/float64(len(coeffs))`. math/poly/asm_fft_amd64.go:105-109. -/
def invFFTInPlace (F : Fpu) (coeffs twInv : GoSlice) (scale : BitVec 64) (g : Reg → BitVec 64) (y : Nat → Y)
    (m m' : Memory) : Prop :=
  Returns F invFFTInPlaceAVX2 (coeffs.arg ++ twInv.arg ++ word64 scale) (entry g y m) m'

end Asm
end Tfhe
