import Verif.Model.AsmVec
import Verif.Model.VecMul

/-!
# The Go functions that call the assembly of `math/vec`

`math/vec/asm_vec_amd64.go`, for elements of type `uint32` and `uint64` on a processor with AVX2.
-/
namespace Tfhe
namespace Asm

/-- A Go slice header. -/
structure GoSlice where
  /-- address of the first element -/
  base : BitVec 64
  /-- length -/
  len : Nat
  /-- capacity -/
  cap : Nat

/-- The slice as an argument on the stack. -/
def GoSlice.arg (s : GoSlice) : List (BitVec 32) := sliceArg s.base s.len s.cap

/-- The shape of the functions of math/vec/asm_vec_amd64.go: `checkLength`, then the call with the slices and
the scalar.  `none` is a panic; `some m'` is a return with memory `m'`. -/
def avxCall (F : Fpu) (P : Prog) (ss : List GoSlice) (scalar : List (BitVec 32)) (g : Reg → BitVec 64)
    (y : Nat → Y) (m : Memory) : Option Memory → Prop
  | none => checkLength (ss.map (·.len)) = none
  | some m' => checkLength (ss.map (·.len)) = some () ∧
      Returns F P (ss.flatMap GoSlice.arg ++ scalar) (entry g y m) m'

/-- `vec.AddTo` on `uint32`. math/vec/asm_vec_amd64.go:13-32. -/
def addTo32 (F : Fpu) (out v0 v1 : GoSlice) := avxCall F addToUint32AVX2 [out, v0, v1] []
/-- `vec.AddTo` on `uint64`. math/vec/asm_vec_amd64.go:13-32. -/
def addTo64 (F : Fpu) (out v0 v1 : GoSlice) := avxCall F addToUint64AVX2 [out, v0, v1] []
/-- `vec.SubTo` on `uint32`. math/vec/asm_vec_amd64.go:66-85. -/
def subTo32 (F : Fpu) (out v0 v1 : GoSlice) := avxCall F subToUint32AVX2 [out, v0, v1] []
/-- `vec.SubTo` on `uint64`. math/vec/asm_vec_amd64.go:66-85. -/
def subTo64 (F : Fpu) (out v0 v1 : GoSlice) := avxCall F subToUint64AVX2 [out, v0, v1] []
/-- `vec.ScalarMulTo` on `uint32`. math/vec/asm_vec_amd64.go:119-138. -/
def scalarMulTo32 (F : Fpu) (out v : GoSlice) (c : BitVec 32) := avxCall F scalarMulToUint32AVX2 [out, v] [c]
/-- `vec.ScalarMulTo` on `uint64`. math/vec/asm_vec_amd64.go:119-138. -/
def scalarMulTo64 (F : Fpu) (out v : GoSlice) (c : BitVec 64) := avxCall F scalarMulToUint64AVX2 [out, v] (word64 c)
/-- `vec.ScalarMulAddTo` on `uint32`. math/vec/asm_vec_amd64.go:170-189. -/
def scalarMulAddTo32 (F : Fpu) (out v : GoSlice) (c : BitVec 32) := avxCall F scalarMulAddToUint32AVX2 [out, v] [c]
/-- `vec.ScalarMulAddTo` on `uint64`. math/vec/asm_vec_amd64.go:170-189. -/
def scalarMulAddTo64 (F : Fpu) (out v : GoSlice) (c : BitVec 64) := avxCall F scalarMulAddToUint64AVX2 [out, v] (word64 c)
/-- `vec.ScalarMulSubTo` on `uint32`. math/vec/asm_vec_amd64.go:221-240. -/
def scalarMulSubTo32 (F : Fpu) (out v : GoSlice) (c : BitVec 32) := avxCall F scalarMulSubToUint32AVX2 [out, v] [c]
/-- `vec.ScalarMulSubTo` on `uint64`. math/vec/asm_vec_amd64.go:221-240. -/
def scalarMulSubTo64 (F : Fpu) (out v : GoSlice) (c : BitVec 64) := avxCall F scalarMulSubToUint64AVX2 [out, v] (word64 c)
/-- `vec.MulTo` on `uint32`. math/vec/asm_vec_amd64.go:272-291. -/
def mulTo32 (F : Fpu) (out v0 v1 : GoSlice) := avxCall F mulToUint32AVX2 [out, v0, v1] []
/-- `vec.MulTo` on `uint64`. math/vec/asm_vec_amd64.go:272-291. -/
def mulTo64 (F : Fpu) (out v0 v1 : GoSlice) := avxCall F mulToUint64AVX2 [out, v0, v1] []
/-- `vec.MulAddTo` on `uint32`. math/vec/asm_vec_amd64.go:325-344. -/
def mulAddTo32 (F : Fpu) (out v0 v1 : GoSlice) := avxCall F mulAddToUint32AVX2 [out, v0, v1] []
/-- `vec.MulAddTo` on `uint64`. math/vec/asm_vec_amd64.go:325-344. -/
def mulAddTo64 (F : Fpu) (out v0 v1 : GoSlice) := avxCall F mulAddToUint64AVX2 [out, v0, v1] []
/-- `vec.MulSubTo` on `uint32`. math/vec/asm_vec_amd64.go:378-397. -/
def mulSubTo32 (F : Fpu) (out v0 v1 : GoSlice) := avxCall F mulSubToUint32AVX2 [out, v0, v1] []
/-- `vec.MulSubTo` on `uint64`. math/vec/asm_vec_amd64.go:378-397. -/
def mulSubTo64 (F : Fpu) (out v0 v1 : GoSlice) := avxCall F mulSubToUint64AVX2 [out, v0, v1] []

/-- The Go loop of `AddTo` on `uint32`, on machine memory: `vOut[i] = v0[i] + v1[i]` in the order of the indices.
math/vec/asm_vec.go:12-41. -/
def goAddLoop32 (out v0 v1 : BitVec 64) : List Nat → Memory → Option Memory
  | [], m => some m
  | i :: is, m =>
    match m (v0 + BitVec.ofNat 64 (4 * i)), m (v1 + BitVec.ofNat 64 (4 * i)) with
    | some a, some b => goAddLoop32 out v0 v1 is
        (Function.update m (out + BitVec.ofNat 64 (4 * i)) (some (a + b)))
    | _, _ => none

end Asm
end Tfhe
