import Verif.Model.Num

/-!
# Model of the helpers of `math/num/num.go` on integer types

Values of a Go integer type are integers in its range.  `float32` and `float64`, which `Abs`, `Min`, `Max`, `MinN` and `MaxN` also
accept, are not modelled here.  `int`, `uint` and `uintptr` have 64 bits.
-/
namespace Tfhe.GoNum

/-- The types of the constraint `Integer`.  math/num/num.go:10-17. -/
inductive GoInt where
  | uint | uint8 | uint16 | uint32 | uint64 | uintptr | int | int8 | int16 | int32 | int64

/-- `num.MaxT`.  math/num/num.go:38-63. -/
def maxT : GoInt → Nat
  | .int => 9223372036854775807
  | .uint | .uintptr => 18446744073709551615
  | .int8 => 127
  | .uint8 => 255
  | .int16 => 32767
  | .uint16 => 65535
  | .int32 => 2147483647
  | .uint32 => 4294967295
  | .int64 => 9223372036854775807
  | .uint64 => 18446744073709551615

/-- `num.SizeT`.  math/num/num.go:66-81. -/
def sizeT : GoInt → Nat
  | .int | .uint | .uintptr => 64
  | .int8 | .uint8 => 8
  | .int16 | .uint16 => 16
  | .int32 | .uint32 => 32
  | .int64 | .uint64 => 64

/-- `num.ByteSizeT`.  math/num/num.go:84-86. -/
def byteSizeT (t : GoInt) : Nat := sizeT t / 8

/-- `num.MinT`.  math/num/num.go:89-104. -/
def minT : GoInt → Int
  | .int => -9223372036854775808
  | .int8 => -128
  | .int16 => -32768
  | .int32 => -2147483648
  | .int64 => -9223372036854775808
  | _ => 0

/-- Which Go types are signed, and how many bits they have: arithmetic wraps into `w` bits.  (The language, not the package.) -/
def GoInt.kind : GoInt → Bool × Nat
  | .uint => (false, 64) | .uint8 => (false, 8) | .uint16 => (false, 16) | .uint32 => (false, 32) | .uint64 => (false, 64)
  | .uintptr => (false, 64) | .int => (true, 64) | .int8 => (true, 8) | .int16 => (true, 16) | .int32 => (true, 32)
  | .int64 => (true, 64)

/-- A result of arithmetic in the type. -/
def GoInt.wrap (t : GoInt) (z : Int) : Int := wrapInt t.kind.1 t.kind.2 z

/-- `num.IsSigned`: `z - 1 < 0` for the zero value.  math/num/num.go:107-110. -/
def isSigned (t : GoInt) : Bool := decide (t.wrap (0 - 1) < 0)

/-- `num.Abs`.  math/num/num.go:30-35. -/
def absT (t : GoInt) (x : Int) : Int := if x < 0 then t.wrap (-x) else x

/-- `num.Min`.  math/num/num.go:141-146. -/
def min2 (x y : Int) : Int := if x < y then x else y

/-- `num.Max`.  math/num/num.go:149-154. -/
def max2 (x y : Int) : Int := if x > y then x else y

/-- `num.MaxN`.  math/num/num.go:158-171. -/
def maxN : List Int → Int
  | [] => 0
  | a :: l => l.foldl (fun m x => if x > m then x else m) a

/-- `num.MinN`.  math/num/num.go:175-188. -/
def minN : List Int → Int
  | [] => 0
  | a :: l => l.foldl (fun m x => if x < m then x else m) a
end Tfhe.GoNum
