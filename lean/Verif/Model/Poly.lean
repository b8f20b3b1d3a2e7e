import Verif.Model.Vec
import Verif.Spec.Poly

/-!
# Model of `math/poly/poly_ops.go`: monomial multiplication and permutation

A polynomial is the slice of its coefficients.  Go's `int` is `BitVec 64`.  `none` is a panic.
The three forms `To`, `AddTo`, `SubTo` have the same text except for `=`, `+=`, `-=`, which is
the parameter `asg` (old value, right-hand side).
-/
namespace Tfhe

/-- `v[i]` for a Go `int` index. -/
def getI {R : Type} (v : List R) (i : Int) : Option R :=
  if 0 ≤ i then v[i.toNat]? else none

/-- `for i, ii := i, ii; ...; i, ii = i+1, ii+1 { pOut[i] asg g(p[ii]) }`, `n` iterations. -/
def polyLoop {R : Type} (asg : R → R → R) (g : R → R) (p : List R) :
    Nat → Int → Int → List R → Option (List R)
  | 0, _, _, out => some out
  | n + 1, i, ii, out =>
    match getI out i, getI p ii with
    | some o, some x => polyLoop asg g p n (i + 1) (ii + 1) (out.set i.toNat (asg o (g x)))
    | _, _ => none

/-- `d & (m - 1)` on Go `int`s. -/
def goMask (d : BitVec 64) (m : Nat) : Int := (d &&& (BitVec.ofNat 64 m - 1)).toInt

/-- The `switch` of `MonomialMulPolyTo`, `MonomialMulAddPolyTo`, `MonomialMulSubPolyTo`.
math/poly/poly_ops.go:122-155, 187-220, 225-258. -/
def monoMulWith {R : Type} [Neg R] (asg : R → R → R) (N : Nat) (out p : List R) (d : BitVec 64) :
    Option (List R) :=
  if out.length ≠ N ∨ p.length ≠ N then none else
  let k := goMask d (2 * N)
  if N ≤ k then
    (polyLoop asg id p (N - (-k + 2 * N)).toNat 0 (-k + 2 * N) out).bind
      (polyLoop asg Neg.neg p (N - (k - N)).toNat (k - N) 0)
  else if 0 ≤ k ∧ k < N then
    (polyLoop asg Neg.neg p (N - (-k + N)).toNat 0 (-k + N) out).bind
      (polyLoop asg id p (N - k).toNat k 0)
  else if -N ≤ k ∧ k < 0 then
    (polyLoop asg id p (N - (-k)).toNat 0 (-k) out).bind
      (polyLoop asg Neg.neg p (N - (k + N)).toNat (k + N) 0)
  else
    (polyLoop asg Neg.neg p (N - (-k - N)).toNat 0 (-k - N) out).bind
      (polyLoop asg id p (N - (k + 2 * N)).toNat (k + 2 * N) 0)

/-- `MonomialMulPolyTo`. math/poly/poly_ops.go:122-155. -/
def monoMulTo {R : Type} [Neg R] := monoMulWith (R := R) (fun _ x => x)
/-- `MonomialMulAddPolyTo`. math/poly/poly_ops.go:187-220. -/
def monoMulAddTo {R : Type} [Neg R] [Add R] := monoMulWith (R := R) (fun o x => o + x)
/-- `MonomialMulSubPolyTo`. math/poly/poly_ops.go:225-258. -/
def monoMulSubTo {R : Type} [Neg R] [Sub R] := monoMulWith (R := R) (fun o x => o - x)

/-- `for i := i; ...; i++ { p[i] = -p[i] }`, `n` iterations. -/
def negLoop {R : Type} [Neg R] : Nat → Int → List R → Option (List R)
  | 0, _, p => some p
  | n + 1, i, p =>
    match getI p i with
    | some x => negLoop n (i + 1) (p.set i.toNat (-x))
    | none => none

/-- `MonomialMulPolyInPlace`. math/poly/poly_ops.go:158-182. -/
def monoMulInPlace {R : Type} [Neg R] (N : Nat) (p : List R) (d : BitVec 64) : Option (List R) :=
  if p.length ≠ N then none else
  let kk := goMask d N
  (rotateInPlace p kk).bind fun p =>
  let k := goMask d (2 * N)
  if N ≤ k then negLoop (N - kk).toNat kk p
  else if 0 ≤ k ∧ k < N then negLoop kk.toNat 0 p
  else if -N ≤ k ∧ k < 0 then negLoop (N - (N + kk)).toNat (N + kk) p
  else negLoop (N + kk).toNat 0 p

/-- Loop of the permutations, indices `i, i+1, ...`, `n` iterations; `pos`/`neg` are the
assignments of the two branches.  math/poly/poly_ops.go:284-291, 318-325, 342-349. -/
def permLoop {R : Type} (pos neg : R → R → R) (N : Nat) (p : List R) (d : BitVec 64) :
    Nat → Nat → List R → Option (List R)
  | 0, _, out => some out
  | n + 1, i, out =>
    let j := goMask (d * BitVec.ofNat 64 i) (2 * N)
    if j < N then
      match getI out j, getI p i with
      | some o, some x => permLoop pos neg N p d n (i + 1) (out.set j.toNat (pos o x))
      | _, _ => none
    else
      match getI out (j - N), getI p i with
      | some o, some x => permLoop pos neg N p d n (i + 1) (out.set (j - N).toNat (neg o x))
      | _, _ => none

/-- Length and parity checks followed by the loop. -/
def permWith {R : Type} (pos neg : R → R → R) (N : Nat) (out p : List R) (d : BitVec 64) :
    Option (List R) :=
  if out.length ≠ N ∨ p.length ≠ N then none
  else if d &&& 1 = 0 then none
  else permLoop pos neg N p d N 0 out

/-- `PermutePolyTo`. math/poly/poly_ops.go:277-292.  `PermutePolyInPlace` (298-303) runs it into
the evaluator's buffer and copies the result back. -/
def permTo {R : Type} [Neg R] := permWith (R := R) (fun _ x => x) (fun _ x => -x)
/-- `PermuteAddPolyTo`. math/poly/poly_ops.go:311-326. -/
def permAddTo {R : Type} [Add R] [Sub R] := permWith (R := R) (fun o x => o + x) (fun o x => o - x)
/-- `PermuteSubPolyTo`. math/poly/poly_ops.go:334-349. -/
def permSubTo {R : Type} [Add R] [Sub R] := permWith (R := R) (fun o x => o - x) (fun o x => o + x)

/-- The coefficient slice of a polynomial. -/
def Poly.toList {N : ℕ} {R : Type} (p : Poly N R) : List R := List.ofFn (n := N) p

end Tfhe
