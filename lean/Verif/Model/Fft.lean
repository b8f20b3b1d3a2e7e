import Verif.Model.Glwe
import Verif.Model.Vec
import Verif.Model.Params
import Mathlib.Algebra.Order.Floor.Ring
import Mathlib.Algebra.Order.Field.Basic

/-!
# Model of the transform: `math/poly/fft.go`, `asm_fft.go`, `asm_fold.go`, `asm_vec_cmplx.go`, `fft_ops.go`, `poly_evaluator.go`

The portable code (`asm_*.go`); the assembly is not modelled.  Arithmetic is exact, over any field `F`; the statements use the
real numbers.  A vector of `float64` is a function on indices.  Twiddle tables are functions, because the code reads them
through unchecked pointers.  `cis n d` stands for `cmplx.Exp(complex(0, 2*math.Pi*n/d))`, as a pair of real and imaginary part.
-/
namespace Tfhe.Fft
open Tfhe

variable {F : Type}

section Ring
variable [Ring F]

/-- Product of `complex128`. -/
def cmul (a b : F × F) : F × F := (a.1 * b.1 - a.2 * b.2, a.1 * b.2 + a.2 * b.1)

/-! ### Butterflies -/

/-- `fwdButterfly`.  math/poly/asm_fft.go:7-11. -/
def fwdButterfly (uR uI vR vI wR wI : F) : F × F × F × F :=
  let vwR := vR * wR - vI * wI
  let vwI := vR * wI + vI * wR
  (uR + vwR, uI + vwI, uR - vwR, uI - vwI)

/-- `invButterfly`.  math/poly/asm_fft.go:87-92. -/
def invButterfly (uR uI vR vI wR wI : F) : F × F × F × F :=
  let (uR, uI, vR, vI) := (uR + vR, uI + vI, uR - vR, uI - vI)
  let vwR := vR * wR - vI * wI
  let vwI := vR * wI + vI * wR
  (uR, uI, vwR, vwI)

end Ring

/-- A butterfly on four places of a vector, `x[a], x[b], x[d], x[e] = B(x[a], x[b], x[d], x[e], w)`. -/
def bf (B : F → F → F → F → F → F → F × F × F × F) (x : ℕ → F) (a b d e : ℕ) (w : F × F) : ℕ → F :=
  let y := B (x a) (x b) (x d) (x e) w.1 w.2
  upd (upd (upd (upd x a y.1) b y.2.1) d y.2.2.1) e y.2.2.2

/-- Four butterflies at distance `t`.  math/poly/asm_fft.go:49-55. -/
def bf8 (B : F → F → F → F → F → F → F × F × F × F) (x : ℕ → F) (j t : ℕ) (w : F × F) : ℕ → F :=
  let x := bf B x j (j + 4) (j + t) (j + t + 4) w
  let x := bf B x (j + 1) (j + 5) (j + t + 1) (j + t + 5) w
  let x := bf B x (j + 2) (j + 6) (j + t + 2) (j + t + 6) w
  bf B x (j + 3) (j + 7) (j + t + 3) (j + t + 7) w

/-- `for j := j1; j < j1 + t; j += 8`.  math/poly/asm_fft.go:48-56. -/
def bfRow (B : F → F → F → F → F → F → F × F × F × F) (x : ℕ → F) (j1 t : ℕ) (w : F × F) : ℕ → F :=
  (List.range ((t + 7) / 8)).foldl (fun x J => bf8 B x (j1 + 8 * J) t w) x

/-- One stage of the middle loops, `for i := 0; i < m; i++`; the state is the vector and `wIdx`.
math/poly/asm_fft.go:40-57. -/
def bfStage (B : F → F → F → F → F → F → F × F × F × F) (tw : ℕ → F × F) (m t : ℕ) (s : (ℕ → F) × ℕ) : (ℕ → F) × ℕ :=
  (List.range m).foldl (fun s i => (bfRow B s.1 (2 * i * t) t (tw s.2), s.2 + 1)) s

/-- The stage with two butterflies in each block of eight.  math/poly/asm_fft.go:60-70. -/
def bfStage2 (B : F → F → F → F → F → F → F × F × F × F) (tw : ℕ → F × F) (N : ℕ) (s : (ℕ → F) × ℕ) : (ℕ → F) × ℕ :=
  (List.range ((N + 7) / 8)).foldl (fun s J =>
    let j := 8 * J
    let w := tw s.2
    let x := bf B s.1 j (j + 4) (j + 2) (j + 6) w
    (bf B x (j + 1) (j + 5) (j + 3) (j + 7) w, s.2 + 1)) s

/-- The stage with neighbours.  math/poly/asm_fft.go:72-84. -/
def bfStage1 (B : F → F → F → F → F → F → F × F × F × F) (tw : ℕ → F × F) (N : ℕ) (s : (ℕ → F) × ℕ) : (ℕ → F) × ℕ :=
  (List.range ((N + 7) / 8)).foldl (fun s J =>
    let j := 8 * J
    let x := bf B s.1 j (j + 4) (j + 1) (j + 5) (tw s.2)
    (bf B x (j + 2) (j + 6) (j + 3) (j + 7) (tw (s.2 + 1)), s.2 + 2)) s

/-- The loop over `m` of the forward transform; `fuel` bounds the number of iterations.  math/poly/asm_fft.go:38-58. -/
def fwdMid (B : F → F → F → F → F → F → F × F × F × F) (tw : ℕ → F × F) (N : ℕ) : (fuel m t : ℕ) → (ℕ → F) × ℕ → (ℕ → F) × ℕ
  | 0, _, _, s => s
  | fuel + 1, m, t, s =>
    if m ≤ N / 16 then
      let t := t / 2
      fwdMid B tw N fuel (m * 2) t (bfStage B tw m t s)
    else s

/-- `fwdFFTInPlace` on `N` floats, with the butterfly `B`.  math/poly/asm_fft.go:15-85. -/
def fwdFFTWith (B : F → F → F → F → F → F → F × F × F × F) (N : ℕ) (x : ℕ → F) (tw : ℕ → F × F) : ℕ → F :=
  let s := (bfRow B x 0 (N / 2) (tw 0), 1)
  let s := fwdMid B tw N N 2 (N / 2) s
  let s := bfStage2 B tw N s
  (bfStage1 B tw N s).1

/-- `fwdFFTInPlace` in exact arithmetic.  math/poly/asm_fft.go:15-85. -/
def fwdFFTInPlace [Ring F] (N : ℕ) (x : ℕ → F) (tw : ℕ → F × F) : ℕ → F := fwdFFTWith fwdButterfly N x tw

/-- The loop over `m` of the inverse transform.  math/poly/asm_fft.go:131-152. -/
def invMid (B : F → F → F → F → F → F → F × F × F × F) (tw : ℕ → F × F) : (fuel m t : ℕ) → (ℕ → F) × ℕ → (ℕ → F) × ℕ
  | 0, _, _, s => s
  | fuel + 1, m, t, s =>
    if 2 ≤ m then invMid B tw fuel (m / 2) (t * 2) (bfStage B tw m t s)
    else s

/-- `invFFTInPlace` on `N` floats, with the butterfly `B`; the last stage divides by `N / 2`, with `scale`.
math/poly/asm_fft.go:96-186.  (The code divides in the same loop, block by block; the blocks are disjoint.) -/
def invFFTWith (B : F → F → F → F → F → F → F × F × F × F) (scale : F → F) (N : ℕ) (x : ℕ → F) (twInv : ℕ → F × F) : ℕ → F :=
  let s := bfStage1 B twInv N (x, 0)
  let s := bfStage2 B twInv N s
  let s := invMid B twInv N (N / 16) 8 s
  let y := bfRow B s.1 0 (N / 2) (twInv s.2)
  fun j => if j < N then scale (y j) else y j

/-- `invFFTInPlace` in exact arithmetic.  math/poly/asm_fft.go:96-186. -/
def invFFTInPlace [Field F] (N : ℕ) (x : ℕ → F) (twInv : ℕ → F × F) : ℕ → F :=
  invFFTWith invButterfly (fun y => y / ((N / 2 : ℕ) : F)) N x twInv

/-! ### Twiddle factors -/

/-- The loop that fills `tw`; `mul` is the product of `complex128`.  math/poly/poly_evaluator.go:137-142. -/
def twLoop (mul : F × F → F × F → F × F) (cis : ℤ → ℕ → F × F) (M : ℕ) (twFFT : List (F × F)) : (fuel m t : ℕ) → List (F × F) → Option (List (F × F))
  | 0, _, _, tw => some tw
  | fuel + 1, m, t, tw =>
    if m ≤ M / 2 then
      ((List.range m).mapM fun i => (twFFT[i]?).map fun z => mul z (cis t (4 * M))).bind fun new =>
        twLoop mul cis M twFFT fuel (m * 2) (t / 2) (tw ++ new)
    else some tw

/-- The loop that fills `twInv`.  math/poly/poly_evaluator.go:144-149. -/
def twInvLoop (mul : F × F → F × F → F × F) (cis : ℤ → ℕ → F × F) (M : ℕ) (twInvFFT : List (F × F)) :
    (fuel m t : ℕ) → List (F × F) → Option (List (F × F))
  | 0, _, _, tw => some tw
  | fuel + 1, m, t, tw =>
    if 1 ≤ m then
      ((List.range m).mapM fun i => (twInvFFT[i]?).map fun z => mul z (cis (-t) (4 * M))).bind fun new =>
        twInvLoop mul cis M twInvFFT fuel (m / 2) (t * 2) (tw ++ new)
    else some tw

/-- `genTwiddleFactors(M)`; `none` is a panic.  math/poly/poly_evaluator.go:123-152. -/
def genTwiddleFactors (mul : F × F → F × F → F × F) (cis : ℤ → ℕ → F × F) (M : ℕ) : Option (List (F × F) × List (F × F)) :=
  (bitReverseInPlace ((List.range (M / 2)).map fun i : ℕ => cis (-i) M)).bind fun twFFT =>
  (bitReverseInPlace ((List.range (M / 2)).map fun i : ℕ => cis i M)).bind fun twInvFFT =>
  (twLoop mul cis M twFFT M 1 (M / 2) []).bind fun tw =>
  (twInvLoop mul cis M twInvFFT M (M / 2) 1 []).bind fun twInv => some (tw, twInv)

/-- The tables of an evaluator. -/
structure Eval (F : Type) where
  rank : ℕ
  tw : ℕ → F × F
  twInv : ℕ → F × F
  twMono : ℕ → F × F
  twMonoIdx : ℕ → ℕ

/-- A table read through a pointer. -/
def ptr {α : Type} (d : α) (l : List α) : ℕ → α := fun i => l.getD i d

/-- `NewEvaluator`: the tables; `none` is a panic.  math/poly/poly_evaluator.go:84-120.  The scratch buffers are not modelled; their
number is undefined from rank `2^31` on, where `splitParamsShort` divides by zero bits. -/
def newEvaluatorWith (zero : F) (mul : F × F → F × F → F × F) (cis : ℤ → ℕ → F × F) (N : BitVec 64) : Option (Eval F) :=
  if !isPowerOfTwoInt N then none
  else if N.toInt < 16 then none
  else
    let N := N.toNat
    (genTwiddleFactors mul cis (N / 2)).bind fun t =>
    let twMono := (List.range (2 * N)).map fun i : ℕ => cis (-i) (2 * N)
    let twMonoIdx := (List.range (N / 2)).map fun i => if i = 0 then 2 * N - 1 else 4 * i - 1
    (bitReverseInPlace twMonoIdx).bind fun twMonoIdx =>
    some ⟨N, ptr (zero, zero) t.1, ptr (zero, zero) t.2, ptr (zero, zero) twMono, ptr 0 twMonoIdx⟩

/-- `NewEvaluator` in exact arithmetic.  math/poly/poly_evaluator.go:84-120. -/
def newEvaluator [Ring F] (cis : ℤ → ℕ → F × F) (N : BitVec 64) : Option (Eval F) := newEvaluatorWith 0 cmul cis N

/-! ### Between coefficients and the transform -/

/-- Writing one complex number in the layout of blocks of four. -/
def setC (x : ℕ → F) (j l : ℕ) (z : F × F) : ℕ → F := upd (upd x (j + l) z.1) (j + 4 + l) z.2

/-- Four complex numbers, one block: positions `4 * J` to `4 * J + 3`. -/
def set4 (x : ℕ → F) (J : ℕ) (z : ℕ → F × F) : ℕ → F :=
  setC (setC (setC (setC x (8 * J) 0 (z (4 * J))) (8 * J) 1 (z (4 * J + 1))) (8 * J) 2 (z (4 * J + 2))) (8 * J) 3 (z (4 * J + 3))

/-- All blocks: `for i := 0; i < N; i += 8`. -/
def setAll (x : ℕ → F) (N : ℕ) (z : ℕ → F × F) : ℕ → F :=
  (List.range ((N + 7) / 8)).foldl (fun x J => set4 x J z) x

/-- `foldPolyTo`: words are read as signed; `conv` is the conversion to `float64`.  math/poly/asm_fold.go:13-136. -/
def foldPolyWith (conv : ℤ → F) {w : ℕ} (N : ℕ) (out : ℕ → F) (p : ℕ → BitVec w) : ℕ → F :=
  setAll out N fun a => (conv (p a).toInt, conv (p (a + N / 2)).toInt)

/-- `foldPolyTo`, exact: the conversion to `float64` rounds words of more than 53 bits.  math/poly/asm_fold.go:13-136. -/
def foldPoly [IntCast F] {w : ℕ} (N : ℕ) (out : ℕ → F) (p : ℕ → BitVec w) : ℕ → F :=
  foldPolyWith (fun z => (z : F)) N out p

/-- `FwdFFTTo`.  math/poly/fft.go:13-18. -/
def fwdFFT [Ring F] {w : ℕ} (e : Eval F) (out : ℕ → F) (p : ℕ → BitVec w) : ℕ → F :=
  fwdFFTInPlace e.rank (foldPoly e.rank out p) e.tw

/-- `MonomialFwdFFTTo`.  math/poly/fft.go:46-79. -/
def monomialFwdFFT (e : Eval F) (out : ℕ → F) (d : ℤ) : ℕ → F :=
  let d := (d % (2 * e.rank)).toNat
  setAll out e.rank fun a => e.twMono (e.twMonoIdx a * d % (2 * e.rank))

/-- `MonomialSubOneFwdFFTTo`.  math/poly/fft.go:93-126. -/
def monomialSubOneFwdFFT [Ring F] (e : Eval F) (out : ℕ → F) (d : ℤ) : ℕ → F :=
  let d := (d % (2 * e.rank)).toNat
  setAll out e.rank fun a =>
    let c := e.twMono (e.twMonoIdx a * d % (2 * e.rank))
    (c.1 - 1, c.2)

section Round
variable [Field F] [LinearOrder F] [FloorRing F]

/-- `math.Round`: half away from zero. -/
def round (x : F) : ℤ := if 0 ≤ x then ⌊x + 1 / 2⌋ else -⌊-x + 1 / 2⌋

/-- `floatModQInPlace`, one element.  math/poly/asm_fold.go:148. -/
def floatModQ (q : F) (c : F) : ℤ := round (c - q * round (c / q))

/-- `int64(x)`; `none` when it does not fit, where the result depends on the machine. -/
def toInt64 (x : ℤ) : Option ℤ := if -2 ^ 63 ≤ x ∧ x < 2 ^ 63 then some x else none

/-- Element `i` of the output of `InvFFTTo` before it is stored: inverse transform, reduction, conversion.  `δ` is the error of the
floating-point computation at this place.  math/poly/fft.go:136-143 and math/poly/asm_fold.go:161-184. -/
def invFFTAt (w : ℕ) (e : Eval F) (δ : ℕ → F) (fp : ℕ → F) (i : ℕ) : Option (BitVec w) :=
  let y := invFFTInPlace e.rank fp e.twInv
  -- coefficient `i` is the real part of position `i`, or the imaginary part of position `i - N/2`
  let a := if i < e.rank / 2 then 8 * (i / 4) + i % 4 else 8 * ((i - e.rank / 2) / 4) + (i - e.rank / 2) % 4 + 4
  (toInt64 (floatModQ (2 ^ w) (y a + δ a))).map fun z => BitVec.ofInt w z

/-- `InvFFTTo` and `InvFFTToUnsafe`: all elements, `none` when a conversion does not fit.  math/poly/fft.go:136-143. -/
def invFFT (w : ℕ) (e : Eval F) (δ : ℕ → F) (fp : ℕ → F) : Option (List (BitVec w)) :=
  (List.range e.rank).mapM (invFFTAt w e δ fp)
end Round

/-! ### Operations on transforms -/

/-- Element-wise loops of `asm_vec_cmplx.go` on complex numbers in memory: in block `i`, four times
`wOut[l], wOut[l+4] = op(wOut, w0, w1)`.  The operands may be the same vectors. -/
def cmplxLoop (op : F × F → F × F → F × F → F × F) (m : Mem F) (out v0 v1 N : ℕ) : Mem F :=
  (List.range ((N + 7) / 8)).foldl (fun m J =>
    (List.range 4).foldl (fun m l =>
      let at' := fun v => (m v (8 * J + l), m v (8 * J + 4 + l))
      let z := op (at' out) (at' v0) (at' v1)
      (m.write out (8 * J + l) z.1).write out (8 * J + 4 + l) z.2) m) m

section Cmplx
variable [Ring F]

/-- `mulCmplxTo`.  math/poly/asm_vec_cmplx.go:248-277. -/
def mulCmplx (m : Mem F) (out v0 v1 N : ℕ) : Mem F :=
  cmplxLoop (fun _ x y => (x.1 * y.1 - x.2 * y.2, x.1 * y.2 + x.2 * y.1)) m out v0 v1 N

/-- `mulAddCmplxTo`.  math/poly/asm_vec_cmplx.go:280-309. -/
def mulAddCmplx (m : Mem F) (out v0 v1 N : ℕ) : Mem F :=
  cmplxLoop (fun o x y => (o.1 + (x.1 * y.1 - x.2 * y.2), o.2 + (x.1 * y.2 + x.2 * y.1))) m out v0 v1 N

/-- `mulSubCmplxTo`.  math/poly/asm_vec_cmplx.go:312-341. -/
def mulSubCmplx (m : Mem F) (out v0 v1 N : ℕ) : Mem F :=
  cmplxLoop (fun o x y => (o.1 - (x.1 * y.1 - x.2 * y.2), o.2 - (x.1 * y.2 + x.2 * y.1))) m out v0 v1 N

/-- Reversal of 64 bits, `bits.Reverse64`. -/
def reverse64 (x : ℕ) : ℕ := (BitVec.ofNat 64 x).reverse.toNat

/-- Position `i` (a multiple of eight plus less than four) of the output of `PermuteFFTPolyTo`: where it is read, and the
sign of the imaginary part.  math/poly/fft_ops.go:190-223.  Go ints are unbounded here; only their lowest bits matter. -/
def permuteIdx (N : ℕ) (d : ℤ) (i : ℕ) : ℕ × F :=
  let rev := 64 - (bitLen N - 1 - 1)
  let d := d % (2 * N)
  let ci := (i / 8) * 4 + i % 4
  let ci := reverse64 ci / 2 ^ rev
  let k := if d % 4 = 1 then (d - 1) / 4 else (d - 3) / 4
  let cj := if d % 4 = 1 then (d * ci - k) % (N / 2 : ℕ) else (-d * ci + k + 1) % (N / 2 : ℕ)
  let cj := reverse64 cj.toNat / 2 ^ rev
  ((cj / 4) * 8 + cj % 4, if d % 4 = 1 then 1 else -1)

/-- `PermuteFFTPolyTo` for operands that do not overlap; `none` is the panic for even `d`.  math/poly/fft_ops.go:183-224.
With `op o z = o + z` and `o - z` it is `PermuteAddFFTPolyTo` and `PermuteSubFFTPolyTo`, math/poly/fft_ops.go:247-335. -/
def permuteFFTPoly (op : F → F → F) (N : ℕ) (out fp : ℕ → F) (d : ℤ) : Option (ℕ → F) :=
  if d % 2 = 0 then none
  else some ((List.range ((N + 7) / 8)).foldl (fun out J =>
    (List.range 4).foldl (fun out l =>
      let i := 8 * J + l
      let j := permuteIdx (F := F) N d i
      let out := upd out i (op (out i) (fp j.1))
      upd out (i + 4) (op (out (i + 4)) (j.2 * fp (j.1 + 4)))) out) out)
end Cmplx

end Tfhe.Fft
