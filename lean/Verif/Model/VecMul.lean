import Verif.Model.Vec

/-!
# The element-wise products of `math/vec/asm_vec.go`, and `checkLength`
-/
namespace Tfhe

variable {R : Type}
/-- `vec.MulTo`. math/vec/asm_vec.go:166-195. -/
def vecMulTo [Mul R] (len out v0 v1 : Nat) (m : Mem R) : Mem R :=
  mapLoop (fun _ a b => a * b) out v0 v1 (unrolledIdx len) m
/-- `vec.MulAddTo`. math/vec/asm_vec.go:198-227. -/
def vecMulAddTo [Add R] [Mul R] (len out v0 v1 : Nat) (m : Mem R) : Mem R :=
  mapLoop (fun o a b => o + a * b) out v0 v1 (unrolledIdx len) m
/-- `vec.MulSubTo`. math/vec/asm_vec.go:230-259. -/
def vecMulSubTo [Sub R] [Mul R] (len out v0 v1 : Nat) (m : Mem R) : Mem R :=
  mapLoop (fun o a b => o - a * b) out v0 v1 (unrolledIdx len) m

/-- `checkLength`; `none` is its panic. math/vec/vec.go:17-27. -/
def checkLength : List Nat → Option Unit
  | [] => some ()
  | x :: xs => if xs.all (· == x) then some () else none

end Tfhe
