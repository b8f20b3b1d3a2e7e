import Verif.Model.Num

/-!
# Model of `math/vec/vec.go` and `math/vec/asm_vec.go`
-/
namespace Tfhe

/-- `v[i], v[j] = v[j], v[i]`; `none` is an index-out-of-range panic. -/
def swapAt {α : Type} (v : List α) (i j : Nat) : Option (List α) :=
  match v[i]?, v[j]? with
  | some a, some b => some ((v.set i b).set j a)
  | _, _ => none

/-- Loop of `ReverseInPlace`. math/vec/vec.go:127-131. -/
def reverseLoop {α : Type} (v : List α) (i j : Nat) : Option (List α) :=
  if i < j then
    match swapAt v i j with
    | none => none
    | some v => reverseLoop v (i + 1) (j - 1)
  else some v
termination_by j - i

/-- `vec.ReverseInPlace`. math/vec/vec.go:127-131.  For an empty vector Go starts with
`j = -1`; natural subtraction gives `0`, and `i < j` is false in both cases. -/
def reverseInPlace {α : Type} (v : List α) : Option (List α) := reverseLoop v 0 (v.length - 1)

/-- The offset computed by `RotateTo` and `RotateInPlace`; `none` is the division by zero
panic for an empty vector.  `-l` is a 64-bit negation and `%` truncates.
math/vec/vec.go:83-87, 96-100. -/
def rotateOffset (len : Nat) (l : Int) : Option Int :=
  if len = 0 then none
  else if l < 0 then some (wrapInt true 64 (len - (wrapInt true 64 (-l)).tmod len))
  else some (l.tmod len)

/-- A slice bound: `none` (panic) unless `0 ≤ l ≤ len`. -/
def sliceBound (len : Nat) (l : Int) : Option Nat :=
  if 0 ≤ l ∧ l ≤ len then some l.toNat else none

/-- `vec.RotateTo` for non-overlapping `vOut`, `v` of the same length: the new contents of
`vOut`.  `copy(vOut[l:], v)` copies the first `len-l` elements.  math/vec/vec.go:80-91. -/
def rotateTo {α : Type} (v : List α) (l : Int) : Option (List α) :=
  (rotateOffset v.length l).bind fun l => (sliceBound v.length l).bind fun l =>
    some (v.drop (v.length - l) ++ v.take (v.length - l))

/-- `vec.RotateInPlace`. math/vec/vec.go:95-105. -/
def rotateInPlace {α : Type} (v : List α) (l : Int) : Option (List α) :=
  (rotateOffset v.length l).bind fun l =>
  (reverseInPlace v).bind fun v =>
  (sliceBound v.length l).bind fun l =>
  (reverseInPlace (v.take l)).bind fun a =>
  (reverseInPlace (v.drop l)).bind fun b => some (a ++ b)

/-- Loop of `vec.ReverseTo` for non-overlapping slices: `vOut[len-i-1] = v[i]`.
math/vec/vec.go:121-123.  Processes indices `i, i+1, ...` -/
def reverseToLoop {α : Type} (out : List α) (len : Nat) : Nat → List α → List α
  | _, [] => out
  | i, a :: v => reverseToLoop (out.set (len - i - 1) a) len (i + 1) v

/-- `vec.ReverseTo`; `none` is the panic of `checkLength`. math/vec/vec.go:118-124. -/
def reverseTo {α : Type} (out v : List α) : Option (List α) :=
  if out.length ≠ v.length then none else some (reverseToLoop out out.length 0 v)

/-- Inner loop of `BitReverseInPlace`: `for j >= bit { j -= bit; bit >>= 1 }; j += bit`.
When `bit` reaches 0 the Go loop never ends: `none`.  math/vec/vec.go:137-142. -/
def bitRevNext (bit j : Nat) : Option Nat :=
  if bit = 0 then none
  else if bit ≤ j then bitRevNext (bit / 2) (j - bit)
  else some (j + bit)
termination_by bit
decreasing_by omega

/-- Outer loop of `BitReverseInPlace` from index `i`, `n` iterations left.
math/vec/vec.go:134-147. -/
def bitRevLoop {α : Type} (v : List α) (i j : Nat) : Nat → Option (List α)
  | 0 => some v
  | n + 1 =>
    match bitRevNext (v.length / 2) j with
    | none => none
    | some j =>
      if i < j then
        match swapAt v i j with
        | none => none
        | some v => bitRevLoop v (i + 1) j n
      else bitRevLoop v (i + 1) j n

/-- `vec.BitReverseInPlace`; `none` is a panic or non-termination. math/vec/vec.go:134-147. -/
def bitReverseInPlace {α : Type} (v : List α) : Option (List α) :=
  bitRevLoop v 1 0 (v.length - 1)

/-! ### Element-wise operations on vectors in memory -/

/-- A store of vectors: vector name, then index.  Two arguments of a call are aliased when
they have the same name.  (Partially overlapping slices are not represented.) -/
abbrev Mem (R : Type) := Nat → Nat → R

/-- Write one element. -/
def Mem.write {R : Type} (m : Mem R) (v i : Nat) (x : R) : Mem R :=
  fun v' i' => if v' = v ∧ i' = i then x else m v' i'

/-- The order in which the unrolled loops visit the indices: blocks of 8, then the tail.
math/vec/asm_vec.go:15-40 (same shape in all the functions of the file). -/
def unrolledIdx (len : Nat) : List Nat :=
  (List.range (len / 8)).flatMap (fun b => (List.range 8).map (fun k => 8 * b + k)) ++
    List.range' (len / 8 * 8) (len - len / 8 * 8)

/-- A loop `for i { vOut[i] = f i (vOut[i]) (v0[i]) (v1[i]) }` over the unrolled index order.
Every element-wise function of math/vec/asm_vec.go has this form. -/
def mapLoop {R : Type} (f : R → R → R → R) (out v0 v1 : Nat) : List Nat → Mem R → Mem R
  | [], m => m
  | i :: is, m => mapLoop f out v0 v1 is (m.write out i (f (m out i) (m v0 i) (m v1 i)))

variable {R : Type}
/-- `vec.AddTo`. math/vec/asm_vec.go:12-41. -/
def vecAddTo [Add R] (len out v0 v1 : Nat) (m : Mem R) : Mem R :=
  mapLoop (fun _ a b => a + b) out v0 v1 (unrolledIdx len) m
/-- `vec.SubTo`. math/vec/asm_vec.go:44-73. -/
def vecSubTo [Sub R] (len out v0 v1 : Nat) (m : Mem R) : Mem R :=
  mapLoop (fun _ a b => a - b) out v0 v1 (unrolledIdx len) m
/-- `vec.ScalarMulTo`. math/vec/asm_vec.go:76-103. -/
def vecScalarMulTo [Mul R] (len out v : Nat) (c : R) (m : Mem R) : Mem R :=
  mapLoop (fun _ a _ => c * a) out v v (unrolledIdx len) m
/-- `vec.ScalarMulAddTo`. math/vec/asm_vec.go:106-133. -/
def vecScalarMulAddTo [Add R] [Mul R] (len out v : Nat) (c : R) (m : Mem R) : Mem R :=
  mapLoop (fun o a _ => o + c * a) out v v (unrolledIdx len) m
/-- `vec.ScalarMulSubTo`. math/vec/asm_vec.go:136-163. -/
def vecScalarMulSubTo [Sub R] [Mul R] (len out v : Nat) (c : R) (m : Mem R) : Mem R :=
  mapLoop (fun o a _ => o - c * a) out v v (unrolledIdx len) m
/-- `vec.NegTo` (a plain loop). math/vec/vec.go:190-196. -/
def vecNegTo [Neg R] (len out v : Nat) (m : Mem R) : Mem R :=
  mapLoop (fun _ a _ => -a) out v v (List.range len) m

end Tfhe
