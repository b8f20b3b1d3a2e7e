import Mathlib.Data.BitVec

/-!
# Specification vocabulary for torus words
-/
namespace Tfhe

/-- Distance of a torus word from zero on the circle of `2^w` points:
the absolute value of its centred representative. -/
def wabs {w : Nat} (x : BitVec w) : Nat := x.toInt.natAbs

/-- `r` is the integer nearest to `x / 2^b`, ties rounded up:
`-1/2 < r - x/2^b ≤ 1/2`, cleared of denominators. -/
def NearestTiesUp (x b r : Int) : Prop :=
  -(2 ^ b.toNat) < 2 * (r * 2 ^ b.toNat - x) ∧ 2 * (r * 2 ^ b.toNat - x) ≤ 2 ^ b.toNat

end Tfhe
