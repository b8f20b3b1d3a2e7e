import Verif.Model.Params
import Mathlib.Algebra.Order.Ring.Rat
import Mathlib.Order.WithBot

/-!
# `poly.From` and `FFTPoly.Approx`

A panic is `none`; memory does not run out.
-/
namespace Tfhe.PolyBasic

/-- `copy(dst, src)` between slices that do not overlap. (The language, not the package.) -/
def goCopy {R : Type} (dst src : List R) : List R :=
  src.take (min dst.length src.length) ++ dst.drop (min dst.length src.length)

/-- `poly.From`.  math/poly/poly.go:32-36. -/
def fromCoeffs {R : Type} (z : R) (coeffs : List R) (N : BitVec 64) : Option (List R) :=
  (newPolyRank N).bind fun n => some (goCopy (List.replicate n z) coeffs)

/-- A `float64` up to the sign of zero: `none` is a NaN, otherwise a rational number or an infinity. -/
abbrev Flt := Option (WithBot (WithTop ℚ))

/-- The comparison `x > y` of the language, which is false if one side is a NaN. -/
def fltGt : Flt → Flt → Bool
  | some x, some y => decide (y < x)
  | _, _ => false

/-- The loop of `FFTPoly.Approx` from index `i` on, with `n` indices of the receiver left; an index
outside `p0` panics.  `absDiff x y` is `math.Abs(x - y)`, with whatever rounding.
math/poly/poly.go:125-130. -/
def approxLoop (absDiff : Flt → Flt → Flt) (p p0 : List Flt) (eps : Flt) : ℕ → ℕ → Option Bool
  | _, 0 => some true
  | i, n + 1 =>
      match p[i]?, p0[i]? with
      | some x, some y =>
          if fltGt (absDiff x y) eps then some false else approxLoop absDiff p p0 eps (i + 1) n
      | _, _ => none

/-- `FFTPoly.Approx`.  math/poly/poly.go:124-131. -/
def approx (absDiff : Flt → Flt → Flt) (p p0 : List Flt) (eps : Flt) : Option Bool :=
  approxLoop absDiff p p0 eps 0 p.length

end Tfhe.PolyBasic
