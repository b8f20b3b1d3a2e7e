import Mathlib.Data.List.Basic

/-!
# Conversions of `math/vec/vec.go` between complex slices and the float-4 layout, and `Equals`

A `complex128` is the pair of its two `float64` parts, and the component type is a parameter `F`:
the functions only move components, so nothing depends on what they are.  A panic is `none`.  The
two slices have different element types, so they cannot overlap in Go without `unsafe`.
-/

namespace Tfhe.VecConv

variable {F : Type}

/-- The loop of `CmplxToFloat4To` (math/vec/vec.go:251-261): `out` is the slice `vOut` as written so
far, `j` the output index, and the third argument what is left of `v` from index `i` on. -/
def cmplxToFloat4Loop : List F → ℕ → List (F × F) → List F
  | out, j, a0 :: a1 :: a2 :: a3 :: l =>
      cmplxToFloat4Loop
        ((((((((out.set (j + 0) a0.1).set (j + 1) a1.1).set (j + 2) a2.1).set (j + 3) a3.1).set
          (j + 4) a0.2).set (j + 5) a1.2).set (j + 6) a2.2).set (j + 7) a3.2) (j + 8) l
  | out, _, _ => out

/-- `CmplxToFloat4To(vOut, v)` (math/vec/vec.go:243-262). -/
def cmplxToFloat4To (out : List F) (v : List (F × F)) : Option (List F) :=
  if v.length % 4 ≠ 0 then none
  else if out.length ≠ 2 * v.length then none
  else some (cmplxToFloat4Loop out 0 v)

/-- `CmplxToFloat4(v)` (math/vec/vec.go:224-228); `z` is the float zero of `make`. -/
def cmplxToFloat4 (z : F) (v : List (F × F)) : Option (List F) :=
  cmplxToFloat4To (List.replicate (2 * v.length) z) v

/-- The loop of `Float4ToCmplxTo` (math/vec/vec.go:303-308). -/
def float4ToCmplxLoop : List (F × F) → ℕ → List F → List (F × F)
  | out, j, x0 :: x1 :: x2 :: x3 :: x4 :: x5 :: x6 :: x7 :: l =>
      float4ToCmplxLoop
        ((((out.set (j + 0) (x0, x4)).set (j + 1) (x1, x5)).set (j + 2) (x2, x6)).set
          (j + 3) (x3, x7)) (j + 4) l
  | out, _, _ => out

/-- `Float4ToCmplxTo(vOut, v)` (math/vec/vec.go:295-309). -/
def float4ToCmplxTo (out : List (F × F)) (v : List F) : Option (List (F × F)) :=
  if v.length % 8 ≠ 0 then none
  else if out.length * 2 ≠ v.length then none
  else some (float4ToCmplxLoop out 0 v)

/-- `Float4ToCmplx(v)` (math/vec/vec.go:276-280). -/
def float4ToCmplx (z : F) (v : List F) : Option (List (F × F)) :=
  float4ToCmplxTo (List.replicate (v.length / 2) (z, z)) v

/-- The loop of `Equals` (math/vec/vec.go:35-40): reads `v0[i]` and `v1[i]` for the indices of `v0`;
an index outside `v1` would panic. -/
def equalsLoop {T : Type} [BEq T] (v0 v1 : List T) : ℕ → ℕ → Option Bool
  | _, 0 => some true
  | i, n + 1 =>
      match v0[i]?, v1[i]? with
      | some a, some b => if a != b then some false else equalsLoop v0 v1 (i + 1) n
      | _, _ => none

/-- `Equals(v0, v1)` (math/vec/vec.go:30-41); also `Poly.Equals` and `FFTPoly.Equals`
(math/poly/poly.go:60-62, 118-120), which call it on the coefficients. -/
def equals {T : Type} [BEq T] (v0 v1 : List T) : Option Bool :=
  if v0.length ≠ v1.length then some false else equalsLoop v0 v1 0 v0.length

end Tfhe.VecConv
