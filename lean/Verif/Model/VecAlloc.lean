import Verif.Model.VecMul
import Verif.Model.NumTypes

/-!
# The functions of `math/vec/vec.go` that allocate their result

A slice is its elements and its capacity; arguments do not overlap, since the result is new.  A
panic is `none`.  The portable element-wise functions take `&v[:1][0]` of every argument before
they look at the length, and this panics for a slice without capacity.  On amd64 with AVX2 the
functions on `uint32` and `uint64` return from the assembly before that; `avx` says whether this
path is taken.  Its values are those of the loop by C65.
-/
namespace Tfhe.VecAlloc

/-- A Go slice: its elements and its capacity. -/
structure Sl (R : Type) where
  data : List R
  cap : Nat

/-- Go keeps the length at most the capacity. -/
def Sl.Ok {R : Type} (s : Sl R) : Prop := s.data.length ≤ s.cap

/-- `make([]T, n)`. -/
def make {R : Type} (z : R) (n : Nat) : Sl R := ⟨List.replicate n z, n⟩

/-- `&v[:1][0]` for all arguments, unless the assembly is called.  math/vec/asm_vec_amd64.go:16-42,
math/vec/asm_vec.go:18-20. -/
def heads (avx : Bool) (caps : List Nat) : Option Unit :=
  if avx then some () else if caps.all (1 ≤ ·) then some () else none

variable {R : Type}

/-- The arguments as vectors 0, 1 and 2 of a store. -/
def memOf (z : R) (out v0 v1 : List R) : Mem R := fun n i =>
  (if n = 0 then out else if n = 1 then v0 else v1).getD i z

/-- The elements of vector 0. -/
def readBack (len : Nat) (m : Mem R) : List R := (List.range len).map (m 0)

/-- `vec.AddTo`.  math/vec/asm_vec.go:12-41. -/
def addTo [Add R] (avx : Bool) (z : R) (out v0 v1 : Sl R) : Option (List R) :=
  (checkLength [out.data.length, v0.data.length, v1.data.length]).bind fun _ =>
  (heads avx [out.cap, v0.cap, v1.cap]).bind fun _ =>
  some (readBack out.data.length (vecAddTo out.data.length 0 1 2 (memOf z out.data v0.data v1.data)))

/-- `vec.SubTo`.  math/vec/asm_vec.go:44-73. -/
def subTo [Sub R] (avx : Bool) (z : R) (out v0 v1 : Sl R) : Option (List R) :=
  (checkLength [out.data.length, v0.data.length, v1.data.length]).bind fun _ =>
  (heads avx [out.cap, v0.cap, v1.cap]).bind fun _ =>
  some (readBack out.data.length (vecSubTo out.data.length 0 1 2 (memOf z out.data v0.data v1.data)))

/-- `vec.MulTo`.  math/vec/asm_vec.go:166-195. -/
def mulTo [Mul R] (avx : Bool) (z : R) (out v0 v1 : Sl R) : Option (List R) :=
  (checkLength [out.data.length, v0.data.length, v1.data.length]).bind fun _ =>
  (heads avx [out.cap, v0.cap, v1.cap]).bind fun _ =>
  some (readBack out.data.length (vecMulTo out.data.length 0 1 2 (memOf z out.data v0.data v1.data)))

/-- `vec.ScalarMulTo`.  math/vec/asm_vec.go:76-103. -/
def scalarMulTo [Mul R] (avx : Bool) (z : R) (out v : Sl R) (c : R) : Option (List R) :=
  (checkLength [out.data.length, v.data.length]).bind fun _ =>
  (heads avx [out.cap, v.cap]).bind fun _ =>
  some (readBack out.data.length (vecScalarMulTo out.data.length 0 1 c (memOf z out.data v.data v.data)))

/-- `vec.NegTo`: a plain loop, without `&v[:1][0]`.  math/vec/vec.go:190-196. -/
def negTo [Neg R] (z : R) (out v : Sl R) : Option (List R) :=
  (checkLength [out.data.length, v.data.length]).bind fun _ =>
  some (readBack out.data.length (vecNegTo out.data.length 0 1 (memOf z out.data v.data v.data)))

/-- `vec.Add`.  math/vec/vec.go:169-173. -/
def add [Add R] (avx : Bool) (z : R) (v0 v1 : Sl R) : Option (List R) :=
  addTo avx z (make z v0.data.length) v0 v1

/-- `vec.Sub`.  math/vec/vec.go:176-180. -/
def sub [Sub R] (avx : Bool) (z : R) (v0 v1 : Sl R) : Option (List R) :=
  subTo avx z (make z v0.data.length) v0 v1

/-- `vec.Mul`.  math/vec/vec.go:206-210. -/
def mul [Mul R] (avx : Bool) (z : R) (v0 v1 : Sl R) : Option (List R) :=
  mulTo avx z (make z v0.data.length) v0 v1

/-- `vec.ScalarMul`.  math/vec/vec.go:199-203. -/
def scalarMul [Mul R] (avx : Bool) (z : R) (v0 : Sl R) (c : R) : Option (List R) :=
  scalarMulTo avx z (make z v0.data.length) v0 c

/-- `vec.Neg`.  math/vec/vec.go:183-187. -/
def neg [Neg R] (z : R) (v : Sl R) : Option (List R) := negTo z (make z v.data.length) v

/-- `vec.Rotate`.  math/vec/vec.go:69-73; `checkLength` passes, as the result has the length of `v`. -/
def rotate (v : Sl R) (l : Int) : Option (List R) := rotateTo v.data l

/-- `vec.Reverse`.  math/vec/vec.go:108-112. -/
def reverse (z : R) (v : Sl R) : Option (List R) := reverseTo (make z v.data.length).data v.data

/-- `vec.CastTo` to an integer type, on integers: the loop over the indices of `vOut`.
math/vec/vec.go:58-64. -/
def castTo (t : GoNum.GoInt) (out v : List Int) : Option (List Int) :=
  (checkLength [out.length, v.length]).bind fun _ =>
  some (readBack out.length
    (mapLoop (fun _ a _ => t.wrap a) 0 1 1 (List.range out.length) (memOf 0 out v v)))

/-- `vec.Cast`.  math/vec/vec.go:51-55. -/
def cast (t : GoNum.GoInt) (v : List Int) : Option (List Int) :=
  castTo t (List.replicate v.length 0) v

end Tfhe.VecAlloc
