import Verif.Model.Fft

/-!
# Model of `math/poly/poly_mul.go`: exact multiplication through limbs

`signed` says whether the element type is signed (`num.IsSigned`).  `δ i` is the error of the floating-point computation of the
`i`-th transform that is inverted, position by position: the difference between what `invFFTInPlace` returns and the exact
value.  `none` is a conversion to `int64` that does not fit.
-/
namespace Tfhe.Fft
open Tfhe

/-- `math.Ceil(size / bits)`; the quotient of two integers below `2^53` has the same ceiling after rounding. -/
def splitCount (w b : ℕ) : ℕ := (w + b - 1) / b

/-- `splitBits` of `splitParameters`.  math/poly/poly_evaluator.go:155-159. -/
def splitBits (N : ℕ) : ℕ := (48 - (bitLen N - 1)) / 4

/-- `splitBits` of `splitParamsShort`.  math/poly/poly_evaluator.go:162-166. -/
def splitBitsShort (N : ℕ) : ℕ := (48 - 2 * 8 - (bitLen N - 1)) / 2

/-- One limb: `(x / splitLow) % splitChunk` for a signed type, `(x >> splitLowBits) & splitMask` for an unsigned one.
math/poly/poly_mul.go:36-61. -/
def limb {w : ℕ} (signed : Bool) (b i : ℕ) (x : BitVec w) : BitVec w :=
  if signed then (x.sdiv (1#w <<< (i * b))).srem (1#w <<< b) else (x >>> (i * b)) &&& ((1#w <<< b) - 1#w)

section
variable {F : Type} {w : ℕ}

/-- What the multiplications call: the rank, `fwdFFT old p`, `mulCmplxTo`, `mulAddCmplxTo` and the `i`-th call of the inverse
transform.  One text of the multiplications serves exact and floating-point arithmetic. -/
structure Ops (F : Type) (w : ℕ) where
  rank : ℕ
  fwd : (ℕ → F) → (ℕ → BitVec w) → ℕ → F
  mul : Mem F → ℕ → ℕ → ℕ → ℕ → Mem F
  mulAdd : Mem F → ℕ → ℕ → ℕ → ℕ → Mem F
  inv : ℕ → (ℕ → F) → Option (List (BitVec w))

/-- The end of all the functions: the first transform with the assignment `asg0`, the others shifted and with `asg`.
math/poly/poly_mul.go:71-78. -/
def recombine (asg0 asg : BitVec w → BitVec w → BitVec w) (inv : ℕ → (ℕ → F) → Option (List (BitVec w))) (b c : ℕ)
    (fp : ℕ → ℕ → F) (out : List (BitVec w)) : Option (List (BitVec w)) :=
  (inv 0 (fp 0)).bind fun x =>
  (List.range (c - 1)).foldlM (fun out i =>
    (inv (i + 1) (fp (i + 1))).map fun x => List.zipWith (fun o x => asg o ((x : BitVec w) <<< ((i + 1) * b))) out x)
    (List.zipWith asg0 out x)

/-- `MulPolyTo`, `MulAddPolyTo` and `MulSubPolyTo` over any arithmetic; vector `3 * i` is `fp0Split[i]`, vector `3 * i + 1` is `fp1Split[i]`, vector
`3 * i + 2` is `fpOutSplit[i]`.  math/poly/poly_mul.go:13-79, 82-148, 151-217. -/
def mulPolyWith [Zero F] (ops : Ops F w) (asg0 asg : BitVec w → BitVec w → BitVec w) (signed : Bool)
    (out : List (BitVec w)) (p0 p1 : ℕ → BitVec w) : Option (List (BitVec w)) :=
  let b := splitBits ops.rank
  let c := splitCount w b
  if c = 1 then
    let m : Mem F := fun v => if v = 0 then ops.fwd (fun _ => 0) p0 else ops.fwd (fun _ => 0) p1
    (ops.inv 0 (ops.mul m 0 0 1 ops.rank 0)).map fun x => List.zipWith asg0 out x
  else
    let m : Mem F := fun v =>
      if v % 3 = 0 then ops.fwd (fun _ => 0) fun j => limb signed b (v / 3) (p0 j)
      else if v % 3 = 1 then ops.fwd (fun _ => 0) fun j => limb signed b (v / 3) (p1 j)
      else fun _ => 0
    let m := (List.range c).foldl (fun m i =>
      (List.range (c - i)).foldl (fun m j => ops.mulAdd m (3 * (i + j) + 2) (3 * i) (3 * j + 1) ops.rank) m) m
    recombine asg0 asg ops.inv b c (fun i => m (3 * i + 2)) out

/-- `ShortFFTPolyMulPolyTo`, `ShortFFTPolyMulAddPolyTo` and `ShortFFTPolyMulSubPolyTo` over any arithmetic; vector `i + 1` is
`fpSplit[i]` (with old contents `old`), vector 0 is `fpShort`.  math/poly/poly_mul.go:231-273, 278-320, 325-367. -/
def shortMulWith (ops : Ops F w) (asg0 asg : BitVec w → BitVec w → BitVec w) (signed : Bool) (old : ℕ → F)
    (out : List (BitVec w)) (p : ℕ → BitVec w) (fpShort : ℕ → F) : Option (List (BitVec w)) :=
  let b := splitBitsShort ops.rank
  let c := splitCount w b
  if c = 1 then
    let m : Mem F := fun v => if v = 0 then fpShort else ops.fwd old p
    (ops.inv 0 (ops.mul m 1 1 0 ops.rank 1)).map fun x => List.zipWith asg0 out x
  else
    let m : Mem F := fun v => if v = 0 then fpShort else old
    let m := (List.range c).foldl (fun m i =>
      let m : Mem F := fun v => if v = i + 1 then ops.fwd (m v) fun j => limb signed b i (p j) else m v
      ops.mul m (i + 1) (i + 1) 0 ops.rank) m
    recombine asg0 asg ops.inv b c (fun i => m (i + 1)) out

variable [Field F] [LinearOrder F] [FloorRing F]

/-- Exact arithmetic, with the error `δ` before the rounding at the end. -/
def exactOps (e : Eval F) (δ : ℕ → ℕ → F) : Ops F w where
  rank := e.rank
  fwd := fwdFFT e
  mul := mulCmplx
  mulAdd := mulAddCmplx
  inv := fun i => invFFT w e (δ i)

/-- `MulPolyTo`, `MulAddPolyTo` and `MulSubPolyTo`.  math/poly/poly_mul.go:13-79, 82-148, 151-217. -/
def mulPoly (asg0 asg : BitVec w → BitVec w → BitVec w) (signed : Bool) (e : Eval F) (δ : ℕ → ℕ → F)
    (out : List (BitVec w)) (p0 p1 : ℕ → BitVec w) : Option (List (BitVec w)) :=
  mulPolyWith (exactOps e δ) asg0 asg signed out p0 p1

/-- `MulPolyTo`.  math/poly/poly_mul.go:13-79. -/
def mulPolyTo (signed : Bool) (e : Eval F) (δ : ℕ → ℕ → F) (out : List (BitVec w)) (p0 p1 : ℕ → BitVec w) :=
  mulPoly (fun _ x => x) (fun o x => o + x) signed e δ out p0 p1
/-- `MulAddPolyTo`.  math/poly/poly_mul.go:82-148. -/
def mulAddPolyTo (signed : Bool) (e : Eval F) (δ : ℕ → ℕ → F) (out : List (BitVec w)) (p0 p1 : ℕ → BitVec w) :=
  mulPoly (fun o x => o + x) (fun o x => o + x) signed e δ out p0 p1
/-- `MulSubPolyTo`.  math/poly/poly_mul.go:151-217. -/
def mulSubPolyTo (signed : Bool) (e : Eval F) (δ : ℕ → ℕ → F) (out : List (BitVec w)) (p0 p1 : ℕ → BitVec w) :=
  mulPoly (fun o x => o - x) (fun o x => o - x) signed e δ out p0 p1

/-- `ShortFFTPolyMulPolyTo`, `ShortFFTPolyMulAddPolyTo` and `ShortFFTPolyMulSubPolyTo`.
math/poly/poly_mul.go:231-273, 278-320, 325-367. -/
def shortMul (asg0 asg : BitVec w → BitVec w → BitVec w) (signed : Bool) (e : Eval F) (δ : ℕ → ℕ → F) (old : ℕ → F)
    (out : List (BitVec w)) (p : ℕ → BitVec w) (fpShort : ℕ → F) : Option (List (BitVec w)) :=
  shortMulWith (exactOps e δ) asg0 asg signed old out p fpShort

/-- `ShortFFTPolyMulPolyTo`.  math/poly/poly_mul.go:231-273. -/
def shortMulTo (signed : Bool) (e : Eval F) (δ : ℕ → ℕ → F) (old : ℕ → F) (out : List (BitVec w)) (p : ℕ → BitVec w)
    (fpShort : ℕ → F) := shortMul (fun _ x => x) (fun o x => o + x) signed e δ old out p fpShort
/-- `ShortFFTPolyMulAddPolyTo`.  math/poly/poly_mul.go:278-320. -/
def shortMulAddTo (signed : Bool) (e : Eval F) (δ : ℕ → ℕ → F) (old : ℕ → F) (out : List (BitVec w)) (p : ℕ → BitVec w)
    (fpShort : ℕ → F) := shortMul (fun o x => o + x) (fun o x => o + x) signed e δ old out p fpShort
/-- `ShortFFTPolyMulSubPolyTo`.  math/poly/poly_mul.go:325-367. -/
def shortMulSubTo (signed : Bool) (e : Eval F) (δ : ℕ → ℕ → F) (old : ℕ → F) (out : List (BitVec w)) (p : ℕ → BitVec w)
    (fpShort : ℕ → F) := shortMul (fun o x => o - x) (fun o x => o - x) signed e δ old out p fpShort
end

end Tfhe.Fft
