import Verif.Model.SplitMul
import Verif.Model.FftStages
import Mathlib.Analysis.SpecialFunctions.Trigonometric.Basic

/-!
# The transform and the multiplications in floating-point arithmetic

The same functions as in `Model/Fft.lean` and `Model/SplitMul.lean`, with the rounded operations of `float64` instead of exact
ones.  A float is the real number it stands for.  The range of the exponent is unbounded: no overflow, no subnormal numbers.

A platform chooses how sums of products are evaluated.  `Fuse.none`, `Fuse.left` and `Fuse.right` are compilations of the Go loops;
`Fuse.avx2` is what the kernels of `math/poly/*_amd64.s` do, in the order of `Verif/Props/C67.lean` and `C68.lean`
(`Verif/Props/C69.lean` connects the two).
-/
namespace Tfhe.Fft
open Tfhe

/-- The operations of `float64` that the transform uses, each with its rounding.  The combinations of a product with a sum or
difference are operations of their own, because the compiler may fuse them.  Those of the butterflies of neighbours (`N`), of the
tables (`T`) and of the products with a constant (`C`) may differ from the other ones. -/
structure Arith where
  add : ℝ → ℝ → ℝ
  sub : ℝ → ℝ → ℝ
  div : ℝ → ℝ → ℝ
  /-- `x*y - z*t` -/
  mulSub : ℝ → ℝ → ℝ → ℝ → ℝ
  /-- `x*y + z*t` -/
  mulAdd : ℝ → ℝ → ℝ → ℝ → ℝ
  /-- `o + σ*(x*y - z*t)` for a sign `σ` -/
  accSub : ℝ → ℝ → ℝ → ℝ → ℝ → ℝ → ℝ
  /-- `o + σ*(x*y + z*t)` for a sign `σ` -/
  accAdd : ℝ → ℝ → ℝ → ℝ → ℝ → ℝ → ℝ
  mulSubN : ℝ → ℝ → ℝ → ℝ → ℝ
  mulAddN : ℝ → ℝ → ℝ → ℝ → ℝ
  mulSubT : ℝ → ℝ → ℝ → ℝ → ℝ
  mulAddT : ℝ → ℝ → ℝ → ℝ → ℝ
  mulSubC : ℝ → ℝ → ℝ → ℝ → ℝ
  mulAddC : ℝ → ℝ → ℝ → ℝ → ℝ
  accSubC : ℝ → ℝ → ℝ → ℝ → ℝ → ℝ → ℝ
  accAddC : ℝ → ℝ → ℝ → ℝ → ℝ → ℝ → ℝ
  /-- `c - q*k` -/
  subMul : ℝ → ℝ → ℝ → ℝ
  /-- `float64(z)` for an integer -/
  conv : ℤ → ℝ
  /-- the nearest integer -/
  round : ℝ → ℤ

/-- The operations in the butterflies of neighbours. -/
def Arith.atNear (A : Arith) : Arith := { A with mulSub := A.mulSubN, mulAdd := A.mulAddN }
/-- The operations in the tables. -/
def Arith.atTable (A : Arith) : Arith := { A with mulSub := A.mulSubT, mulAdd := A.mulAddT }
/-- The operations in the products with a constant. -/
def Arith.atConst (A : Arith) : Arith :=
  { A with mulSub := A.mulSubC, mulAdd := A.mulAddC, accSub := A.accSubC, accAdd := A.accAddC }

/-- How a sum of two products is evaluated: rounding both products, or fusing the first or the second one with the sum. -/
inductive Fma | none | left | right

/-- What a platform chooses. -/
structure Fuse where
  /-- products of complex numbers -/
  prod : Fma
  /-- products in the butterflies of neighbours -/
  near : Fma
  /-- products in the tables -/
  table : Fma
  /-- real part of a product with a constant -/
  constRe : Fma
  /-- imaginary part of a product with a constant -/
  constIm : Fma
  /-- the two products are added to the accumulator one after the other -/
  chain : Bool
  /-- integers are found with ties to even, not away from zero -/
  even : Bool

/-- The Go loops, compiled without fused operations. -/
def Fuse.none : Fuse := ⟨.none, .none, .none, .none, .none, false, false⟩
/-- The Go loops, compiled with the first product fused. -/
def Fuse.left : Fuse := ⟨.left, .left, .left, .left, .left, false, false⟩
/-- The Go loops, compiled with the second product fused. -/
def Fuse.right : Fuse := ⟨.right, .right, .right, .right, .right, false, false⟩
/-- The kernels of `math/poly/asm_fft_amd64.s`, `asm_vec_cmplx_amd64.s` and `asm_fold_amd64.s`, and tables compiled without fused
operations. -/
def Fuse.avx2 : Fuse := ⟨.right, .left, .none, .right, .left, true, true⟩

/-- `x*y` and `z*t` combined with the sign `s`. -/
noncomputable def fused (f : Fma) (fl : ℝ → ℝ) (s x y z t : ℝ) : ℝ :=
  match f with
  | .none => fl (fl (x * y) + s * fl (z * t))
  | .left => fl (x * y + s * fl (z * t))
  | .right => fl (fl (x * y) + s * (z * t))

/-- `o + σ*(x*y + s*(z*t))`: the sum of the products is added, or (`chain`) one product after the other, with `swap` the second one
first. -/
noncomputable def accum (chain swap : Bool) (f : Fma) (fl : ℝ → ℝ) (s σ o x y z t : ℝ) : ℝ :=
  if chain then
    if swap then fl (fl (o + σ * (s * (z * t))) + σ * (x * y)) else fl (fl (o + σ * (x * y)) + σ * (s * (z * t)))
  else fl (o + σ * fused f fl s x y z t)

/-- The nearest integer, ties to even. -/
noncomputable def roundEven (x : ℝ) : ℤ :=
  if Int.fract x < 1 / 2 then ⌊x⌋ else if 1 / 2 < Int.fract x then ⌊x⌋ + 1 else if Even ⌊x⌋ then ⌊x⌋ else ⌊x⌋ + 1

/-- The arithmetic of a rounding function. -/
noncomputable def Arith.ofFl (f : Fuse) (fl : ℝ → ℝ) : Arith where
  add := fun x y => fl (x + y)
  sub := fun x y => fl (x - y)
  div := fun x y => fl (x / y)
  mulSub := fused f.prod fl (-1)
  mulAdd := fused f.prod fl 1
  accSub := accum f.chain false f.prod fl (-1)
  accAdd := accum f.chain false f.prod fl 1
  mulSubN := fused f.near fl (-1)
  mulAddN := fused f.near fl 1
  mulSubT := fused f.table fl (-1)
  mulAddT := fused f.table fl 1
  mulSubC := fused f.constRe fl (-1)
  mulAddC := fused f.constIm fl 1
  accSubC := accum f.chain false f.constRe fl (-1)
  accAddC := accum f.chain true f.constIm fl 1
  subMul := fun c q k => match f.prod with
    | .none => fl (c - fl (q * k))
    | _ => fl (c - q * k)
  conv := fun z => fl z
  round := fun x => if f.even then roundEven x else Fft.round x

/-- A platform: the rounding of `float64`, how sums of products are evaluated, and `math.Sincos` (the cosine first). -/
structure Float64 where
  fl : ℝ → ℝ
  fuse : Fuse
  sincos : ℝ → ℝ × ℝ

/-- The arithmetic of the platform. -/
noncomputable def Float64.arith (F : Float64) : Arith := Arith.ofFl F.fuse F.fl

/-- `cmplx.Exp(complex(0, 2*math.Pi*n/d))`, from left to right; the constant `2*math.Pi` is rounded to `float64`, and `math.Exp(0)`
is 1.  math/poly/poly_evaluator.go:127-129, 138, 145. -/
noncomputable def Float64.cis (F : Float64) (n : ℤ) (d : ℕ) : ℝ × ℝ :=
  F.sincos (F.fl (F.fl (F.fl (2 * Real.pi) * n) / d))

/-- `fwdButterfly`.  math/poly/asm_fft.go:7-11. -/
def fwdButterflyFl (A : Arith) (uR uI vR vI wR wI : ℝ) : ℝ × ℝ × ℝ × ℝ :=
  let vwR := A.mulSub vR wR vI wI
  let vwI := A.mulAdd vR wI vI wR
  (A.add uR vwR, A.add uI vwI, A.sub uR vwR, A.sub uI vwI)

/-- `invButterfly`.  math/poly/asm_fft.go:87-92. -/
def invButterflyFl (A : Arith) (uR uI vR vI wR wI : ℝ) : ℝ × ℝ × ℝ × ℝ :=
  let (uR, uI, vR, vI) := (A.add uR vR, A.add uI vI, A.sub uR vR, A.sub uI vI)
  let vwR := A.mulSub vR wR vI wI
  let vwI := A.mulAdd vR wI vI wR
  (uR, uI, vwR, vwI)

/-- Product of `complex128`. -/
def cmulFl (A : Arith) (a b : ℝ × ℝ) : ℝ × ℝ := (A.mulSub a.1 b.1 a.2 b.2, A.mulAdd a.1 b.2 a.2 b.1)

/-- `NewEvaluator`; `cis n d` is what `cmplx.Exp(complex(0, 2*math.Pi*n/d))` returns.  math/poly/poly_evaluator.go:84-120. -/
noncomputable def newEvaluatorFl (A : Arith) (cis : ℤ → ℕ → ℝ × ℝ) (N : BitVec 64) : Option (Eval ℝ) :=
  newEvaluatorWith 0 (cmulFl A.atTable) cis N

/-- `FwdFFTTo`.  math/poly/fft.go:13-18. -/
def fwdFFTFl (A : Arith) {w : ℕ} (e : Eval ℝ) (out : ℕ → ℝ) (p : ℕ → BitVec w) : ℕ → ℝ :=
  fwdFFTStages (fwdButterflyFl A) (fwdButterflyFl A.atNear) e.rank (foldPolyWith A.conv e.rank out p) e.tw

/-- `invFFTInPlace`.  math/poly/asm_fft.go:96-186. -/
noncomputable def invFFTInPlaceFl (A : Arith) (N : ℕ) (x : ℕ → ℝ) (twInv : ℕ → ℝ × ℝ) : ℕ → ℝ :=
  invFFTStages (invButterflyFl A) (invButterflyFl A.atNear) (fun y => A.div y ((N / 2 : ℕ) : ℝ)) N x twInv

/-- `floatModQInPlace`, one element; the nearest integer of a float is a float, so that it is not rounded again.
math/poly/asm_fold.go:148. -/
noncomputable def floatModQFl (A : Arith) (q : ℝ) (c : ℝ) : ℤ := A.round (A.subMul c q (A.round (A.div c q)))

/-- Element `i` of the output of `InvFFTTo`.  math/poly/fft.go:136-143 and math/poly/asm_fold.go:161-184. -/
noncomputable def invFFTAtFl (A : Arith) (w : ℕ) (e : Eval ℝ) (fp : ℕ → ℝ) (i : ℕ) : Option (BitVec w) :=
  let y := invFFTInPlaceFl A e.rank fp e.twInv
  let a := if i < e.rank / 2 then 8 * (i / 4) + i % 4 else 8 * ((i - e.rank / 2) / 4) + (i - e.rank / 2) % 4 + 4
  (toInt64 (floatModQFl A (2 ^ w) (y a))).map fun z => BitVec.ofInt w z

/-- `InvFFTTo` and `InvFFTToUnsafe`.  math/poly/fft.go:136-143. -/
noncomputable def invFFTFl (A : Arith) (w : ℕ) (e : Eval ℝ) (fp : ℕ → ℝ) : Option (List (BitVec w)) :=
  (List.range e.rank).mapM (invFFTAtFl A w e fp)

/-- `mulCmplxTo`.  math/poly/asm_vec_cmplx.go:248-277. -/
def mulCmplxFl (A : Arith) (m : Mem ℝ) (out v0 v1 N : ℕ) : Mem ℝ :=
  cmplxLoop (fun _ x y => (A.mulSub x.1 y.1 x.2 y.2, A.mulAdd x.1 y.2 x.2 y.1)) m out v0 v1 N

/-- `mulAddCmplxTo`.  math/poly/asm_vec_cmplx.go:280-309. -/
def mulAddCmplxFl (A : Arith) (m : Mem ℝ) (out v0 v1 N : ℕ) : Mem ℝ :=
  cmplxLoop (fun o x y => (A.accSub 1 o.1 x.1 y.1 x.2 y.2, A.accAdd 1 o.2 x.1 y.2 x.2 y.1)) m out v0 v1 N

/-- `mulSubCmplxTo`.  math/poly/asm_vec_cmplx.go:312-341. -/
def mulSubCmplxFl (A : Arith) (m : Mem ℝ) (out v0 v1 N : ℕ) : Mem ℝ :=
  cmplxLoop (fun o x y => (A.accSub (-1) o.1 x.1 y.1 x.2 y.2, A.accAdd (-1) o.2 x.1 y.2 x.2 y.1)) m out v0 v1 N

section
variable {w : ℕ}

/-- What the multiplications call. -/
noncomputable def floatOps (A : Arith) (e : Eval ℝ) : Ops ℝ w where
  rank := e.rank
  fwd := fwdFFTFl A e
  mul := mulCmplxFl A
  mulAdd := mulAddCmplxFl A
  inv := fun _ => invFFTFl A w e

/-- `MulPolyTo`.  math/poly/poly_mul.go:13-79. -/
noncomputable def mulPolyToFl (A : Arith) (signed : Bool) (e : Eval ℝ) (out : List (BitVec w)) (p0 p1 : ℕ → BitVec w) :=
  mulPolyWith (floatOps A e) (fun _ x => x) (fun o x => o + x) signed out p0 p1
/-- `MulAddPolyTo`.  math/poly/poly_mul.go:82-148. -/
noncomputable def mulAddPolyToFl (A : Arith) (signed : Bool) (e : Eval ℝ) (out : List (BitVec w)) (p0 p1 : ℕ → BitVec w) :=
  mulPolyWith (floatOps A e) (fun o x => o + x) (fun o x => o + x) signed out p0 p1
/-- `MulSubPolyTo`.  math/poly/poly_mul.go:151-217. -/
noncomputable def mulSubPolyToFl (A : Arith) (signed : Bool) (e : Eval ℝ) (out : List (BitVec w)) (p0 p1 : ℕ → BitVec w) :=
  mulPolyWith (floatOps A e) (fun o x => o - x) (fun o x => o - x) signed out p0 p1

/-- `ShortFFTPolyMulPolyTo`.  math/poly/poly_mul.go:231-273. -/
noncomputable def shortMulToFl (A : Arith) (signed : Bool) (e : Eval ℝ) (old : ℕ → ℝ) (out : List (BitVec w))
    (p : ℕ → BitVec w) (fpShort : ℕ → ℝ) :=
  shortMulWith (floatOps A e) (fun _ x => x) (fun o x => o + x) signed old out p fpShort
/-- `ShortFFTPolyMulAddPolyTo`.  math/poly/poly_mul.go:278-320. -/
noncomputable def shortMulAddToFl (A : Arith) (signed : Bool) (e : Eval ℝ) (old : ℕ → ℝ) (out : List (BitVec w))
    (p : ℕ → BitVec w) (fpShort : ℕ → ℝ) :=
  shortMulWith (floatOps A e) (fun o x => o + x) (fun o x => o + x) signed old out p fpShort
/-- `ShortFFTPolyMulSubPolyTo`.  math/poly/poly_mul.go:325-367. -/
noncomputable def shortMulSubToFl (A : Arith) (signed : Bool) (e : Eval ℝ) (old : ℕ → ℝ) (out : List (BitVec w))
    (p : ℕ → BitVec w) (fpShort : ℕ → ℝ) :=
  shortMulWith (floatOps A e) (fun o x => o - x) (fun o x => o - x) signed old out p fpShort
end

end Tfhe.Fft
