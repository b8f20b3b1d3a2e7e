/-!
# Model of `math/num/num.go`

Unsigned Go words (`uint32`, `uint64`) are `BitVec w`.
-/
namespace Tfhe

/-- `num.DivRoundBits` for an unsigned type: `(x >> bits) + ((x<<1)>>bits)&1`
(in Go `&` binds tighter than `+`).  math/num/num.go:136-138.
Negative `bits` (a panic in Go) cannot be expressed. -/
def divRoundBits {w : Nat} (x : BitVec w) (bits : Nat) : BitVec w :=
  (x >>> bits) + (((x <<< 1) >>> bits) &&& 1#w)

/-- `num.IsPowerOfTwo` for an unsigned type. math/num/num.go:114-116. -/
def isPowerOfTwo {w : Nat} (x : BitVec w) : Bool :=
  decide (0 < x.toNat) && ((x &&& (x - 1#w)) == 0#w)

/-- `bits.Len64` (Go standard library): the least `k` such that `x < 2^k`. -/
def bitLen : Nat → Nat
  | 0 => 0
  | n + 1 => bitLen ((n + 1) / 2) + 1

/-- `num.Log2`; `none` is the panic for `x <= 0`.  The argument is any Go integer,
modelled by its mathematical value. math/num/num.go:119-125. -/
def log2 (x : Int) : Option Nat :=
  if x ≤ 0 then none else some (bitLen x.toNat - 1)

/-- First loop of `num.Sqrt`: `for d > t { d >>= 2 }`. math/num/num.go:199-201.
Recursion is on `d`; when `d = 0` the Go loop condition is false. -/
def sqrtStart (t : Nat) : Nat → Nat
  | 0 => 0
  | d + 1 => if t < d + 1 then sqrtStart t ((d + 1) / 4) else d + 1
decreasing_by omega

/-- Second loop of `num.Sqrt`. math/num/num.go:203-211.  All values are `uint64`: additions
are taken modulo `2^64`. -/
def sqrtLoop (t c : Nat) : Nat → Nat
  | 0 => c
  | d + 1 =>
    if (c + (d + 1)) % 2 ^ 64 ≤ t then
      sqrtLoop (t - (c + (d + 1)) % 2 ^ 64) ((c / 2 + (d + 1)) % 2 ^ 64) ((d + 1) / 4)
    else sqrtLoop t (c / 2) ((d + 1) / 4)
decreasing_by all_goals omega

/-- `num.Sqrt` for a Go integer given by its value; `none` is the panic for `x < 0`.
math/num/num.go:191-214. The final conversion `T(c)` is exact because `c <= x`. -/
def sqrt (x : Int) : Option Nat :=
  if x < 0 then none
  else some (sqrtLoop x.toNat 0 (sqrtStart x.toNat (2 ^ 62)))

/-- Reduction of an integer result into the range of a Go integer type of `w` bits:
two's complement for signed types, modulo `2^w` for unsigned ones. -/
def wrapInt (signed : Bool) (w : Nat) (z : Int) : Int :=
  if signed then z.bmod (2 ^ w) else z % 2 ^ w

/-- Loop of `num.ModInverse`. math/num/num.go:231-235.  `a` and `b` are non-negative
(`0 <= x < m` on entry and `a - q*b = a mod b`), so they are natural numbers here;
`u` and `v` are Go integers with wrap-around. -/
def modInvLoop (signed : Bool) (w : Nat) (a b : Nat) (u v : Int) : Nat × Int :=
  if _h : b = 0 then (a, u)
  else
    let q := a / b
    modInvLoop signed w b (a - q * b) v (wrapInt signed w (u - wrapInt signed w (q * v)))
termination_by b
decreasing_by
  have h1 := Nat.div_add_mod a b
  have h2 := Nat.mod_lt a (Nat.pos_of_ne_zero _h)
  have h3 : a / b * b = b * (a / b) := Nat.mul_comm _ _
  omega

/-- `if z < 0 { z += m }` -/
def addIfNeg (signed : Bool) (w : Nat) (z m : Int) : Int :=
  if z < 0 then wrapInt signed w (z + m) else z

/-- `num.ModInverse`; `none` is a panic.  Go's `%` truncates towards zero (`Int.tmod`).
math/num/num.go:219-246. -/
def modInverse (signed : Bool) (w : Nat) (x m : Int) : Option Int :=
  if m ≤ 0 then none
  else
    let x := addIfNeg signed w (x.tmod m) m
    let r := modInvLoop signed w x.toNat m.toNat 1 0
    if r.1 ≠ 1 then none
    else some (addIfNeg signed w (r.2.tmod m) m)

/-- Loop of `num.ModExp`. math/num/num.go:272-279.  `y` is positive on entry. -/
def modExpLoop (signed : Bool) (w : Nat) (m : Int) (res x : Int) (y : Nat) : Int :=
  if _h : y = 0 then res
  else
    let res := if y % 2 = 1 then (wrapInt signed w (res * x)).tmod m else res
    modExpLoop signed w m res ((wrapInt signed w (x * x)).tmod m) (y / 2)
termination_by y
decreasing_by omega

/-- `num.ModExp`; `none` is a panic. math/num/num.go:254-285.
After `y = -y` a still negative `y` (the minimum of a signed type) makes the loop exit at
once, which `Int.toNat` reproduces. -/
def modExp (signed : Bool) (w : Nat) (x y m : Int) : Option Int :=
  if m ≤ 0 then none
  else if y = 0 then some 1
  else
    match (if y < 0 then modInverse signed w x m else some x) with
    | none => none
    | some x =>
      let y := if y < 0 then wrapInt signed w (-y) else y
      let x := addIfNeg signed w (x.tmod m) m
      some (addIfNeg signed w (modExpLoop signed w m 1 x y.toNat) m)

end Tfhe
