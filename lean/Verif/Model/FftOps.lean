import Verif.Model.ProductFloat

/-!
# Operations on polynomials and ciphertexts in the Fourier domain

`math/poly/fft_ops.go`, `math/poly/fft.go`, `math/poly/asm_vec_cmplx.go`, and the files `fft_glwe_ops.go` and `fft_glwe_conv.go` of
`tfhe` and `mktfhe`.  Polynomials in the Fourier domain are vectors in memory, so that arguments can be the same vector; the buffers
of the evaluator are vectors as well.  The checks of lengths are not modelled.
-/
namespace Tfhe.Fft
open Tfhe

section
variable (F : Float64)

/-- `o + s*(c*x)` for a sign `s`, as `wOut[0] += c * w[0]` compiles: with the product rounded or fused. -/
noncomputable def addMulFl (s o c x : ℝ) : ℝ :=
  match F.fuse.prod with
  | .none => F.fl (o + s * F.fl (c * x))
  | _ => F.fl (o + s * (c * x))

/-- `addCmplxTo`.  math/poly/asm_vec_cmplx.go:10-32. -/
noncomputable def addCmplxTo (N out v0 v1 : ℕ) (m : Mem ℝ) : Mem ℝ :=
  cmplxLoop (fun _ x y => (F.arith.add x.1 y.1, F.arith.add x.2 y.2)) m out v0 v1 N
/-- `subCmplxTo`.  math/poly/asm_vec_cmplx.go:35-57. -/
noncomputable def subCmplxTo (N out v0 v1 : ℕ) (m : Mem ℝ) : Mem ℝ :=
  cmplxLoop (fun _ x y => (F.arith.sub x.1 y.1, F.arith.sub x.2 y.2)) m out v0 v1 N
/-- `negCmplxTo`.  math/poly/asm_vec_cmplx.go:60-80. -/
def negCmplxTo (N out v : ℕ) (m : Mem ℝ) : Mem ℝ :=
  cmplxLoop (fun _ x _ => (-x.1, -x.2)) m out v v N
/-- `floatMulCmplxTo`.  math/poly/asm_vec_cmplx.go:83-103. -/
def floatMulCmplxTo (c : ℝ) (N out v : ℕ) (m : Mem ℝ) : Mem ℝ :=
  cmplxLoop (fun _ x _ => (F.fl (c * x.1), F.fl (c * x.2))) m out v v N
/-- `floatMulAddCmplxTo`.  math/poly/asm_vec_cmplx.go:106-126. -/
noncomputable def floatMulAddCmplxTo (c : ℝ) (N out v : ℕ) (m : Mem ℝ) : Mem ℝ :=
  cmplxLoop (fun o x _ => (addMulFl F 1 o.1 c x.1, addMulFl F 1 o.2 c x.2)) m out v v N
/-- `floatMulSubCmplxTo`.  math/poly/asm_vec_cmplx.go:129-149. -/
noncomputable def floatMulSubCmplxTo (c : ℝ) (N out v : ℕ) (m : Mem ℝ) : Mem ℝ :=
  cmplxLoop (fun o x _ => (addMulFl F (-1) o.1 c x.1, addMulFl F (-1) o.2 c x.2)) m out v v N
/-- `cmplxMulCmplxTo`.  math/poly/asm_vec_cmplx.go:152-181. -/
noncomputable def cmplxMulCmplxTo (c : ℝ × ℝ) (N out v : ℕ) (m : Mem ℝ) : Mem ℝ :=
  cmplxLoop (fun _ x _ => (F.arith.atConst.mulSub x.1 c.1 x.2 c.2, F.arith.atConst.mulAdd x.1 c.2 x.2 c.1)) m out v v N
/-- `cmplxMulAddCmplxTo`.  math/poly/asm_vec_cmplx.go:184-213. -/
noncomputable def cmplxMulAddCmplxTo (c : ℝ × ℝ) (N out v : ℕ) (m : Mem ℝ) : Mem ℝ :=
  cmplxLoop (fun o x _ => (F.arith.atConst.accSub 1 o.1 x.1 c.1 x.2 c.2, F.arith.atConst.accAdd 1 o.2 x.1 c.2 x.2 c.1))
    m out v v N
/-- `cmplxMulSubCmplxTo`.  math/poly/asm_vec_cmplx.go:216-245. -/
noncomputable def cmplxMulSubCmplxTo (c : ℝ × ℝ) (N out v : ℕ) (m : Mem ℝ) : Mem ℝ :=
  cmplxLoop (fun o x _ => (F.arith.atConst.accSub (-1) o.1 x.1 c.1 x.2 c.2, F.arith.atConst.accAdd (-1) o.2 x.1 c.2 x.2 c.1))
    m out v v N

/-- A whole vector is overwritten. -/
def setVec (m : Mem ℝ) (v : ℕ) (x : ℕ → ℝ) : Mem ℝ := fun v' => if v' = v then x else m v'

/-- `PermuteFFTPolyTo`, with `op o z = o + z` `PermuteAddFFTPolyTo` and with `o - z` `PermuteSubFFTPolyTo`, on vectors in memory that
may be the same; `none` is the panic.  math/poly/fft_ops.go:183-224, 247-287, 295-335. -/
def permuteTo (op : ℝ → ℝ → ℝ) (N : ℕ) (d : ℤ) (out v : ℕ) (m : Mem ℝ) : Option (Mem ℝ) :=
  if d % 2 = 0 then none
  else some ((List.range ((N + 7) / 8)).foldl (fun m J =>
    (List.range 4).foldl (fun m l =>
      let i := 8 * J + l
      let j := permuteIdx (F := ℝ) N d i
      let m := m.write out i (op (m out i) (m v j.1))
      m.write out (i + 4) (op (m out (i + 4)) (j.2 * m v (j.1 + 4)))) m) m)

/-- The buffers of the evaluator that the operations use: `e.buf.fp` and `e.buf.fpOut`.  math/poly/poly_evaluator.go:169-187. -/
structure FBuf where
  fp : ℕ
  fpOut : ℕ

variable (e : Eval ℝ) (b : FBuf) {w : ℕ}

/-- `FwdFFTTo`.  math/poly/fft.go:13-18. -/
noncomputable def fwdFFTTo (p : ℕ → BitVec w) (out : ℕ) (m : Mem ℝ) : Mem ℝ := setVec m out (fwdFFTFl F.arith e (m out) p)
/-- `FwdFFTAddTo`.  math/poly/fft.go:21-27. -/
noncomputable def fwdFFTAddTo (p : ℕ → BitVec w) (out : ℕ) (m : Mem ℝ) : Mem ℝ :=
  addCmplxTo F e.rank out b.fp out (fwdFFTTo F e p b.fp m)
/-- `FwdFFTSubTo`.  math/poly/fft.go:30-36. -/
noncomputable def fwdFFTSubTo (p : ℕ → BitVec w) (out : ℕ) (m : Mem ℝ) : Mem ℝ :=
  subCmplxTo F e.rank out out b.fp (fwdFFTTo F e p b.fp m)
/-- `PolyMulFFTPolyTo`.  math/poly/fft_ops.go:143-148. -/
noncomputable def polyMulFFTPolyTo (p : ℕ → BitVec w) (out v : ℕ) (m : Mem ℝ) : Mem ℝ :=
  mulCmplxFl F.arith (fwdFFTTo F e p b.fp m) out v b.fp e.rank
/-- `PolyMulAddFFTPolyTo`.  math/poly/fft_ops.go:151-156. -/
noncomputable def polyMulAddFFTPolyTo (p : ℕ → BitVec w) (out v : ℕ) (m : Mem ℝ) : Mem ℝ :=
  mulAddCmplxFl F.arith (fwdFFTTo F e p b.fp m) out v b.fp e.rank
/-- `PolyMulSubFFTPolyTo`.  math/poly/fft_ops.go:159-164. -/
noncomputable def polyMulSubFFTPolyTo (p : ℕ → BitVec w) (out v : ℕ) (m : Mem ℝ) : Mem ℝ :=
  mulSubCmplxFl F.arith (fwdFFTTo F e p b.fp m) out v b.fp e.rank
/-- `PermuteFFTPolyInPlace`: permutes into the buffer and copies back.  math/poly/fft_ops.go:230-239. -/
def permuteFFTPolyInPlace (d : ℤ) (v : ℕ) (m : Mem ℝ) : Option (Mem ℝ) :=
  if d % 2 = 0 then none
  else (permuteTo (fun _ z => z) e.rank d b.fpOut v m).map fun m => setVec m v (m b.fpOut)

/-- The operations on polynomials in the Fourier domain, with their arguments other than such polynomials. -/
inductive FOp (w : ℕ)
  | add | sub | neg
  | floatMul (c : ℝ) | floatMulAdd (c : ℝ) | floatMulSub (c : ℝ)
  | cmplxMul (c : ℝ × ℝ) | cmplxMulAdd (c : ℝ × ℝ) | cmplxMulSub (c : ℝ × ℝ)
  | mul | mulAdd | mulSub
  | polyMul (p : ℕ → BitVec w) | polyMulAdd (p : ℕ → BitVec w) | polyMulSub (p : ℕ → BitVec w)
  | fwdAdd (p : ℕ → BitVec w) | fwdSub (p : ℕ → BitVec w)
  | permute (d : ℤ) | permuteAdd (d : ℤ) | permuteSub (d : ℤ) | permuteInPlace (d : ℤ)

/-- The operation `op` with output `out` and arguments `x` and `y`; operations with fewer arguments ignore the rest.
`AddFFTPolyTo`, `SubFFTPolyTo`, `NegFFTPolyTo`, math/poly/fft_ops.go:17-21, 31-35, 45-49; `FloatMulFFTPolyTo`,
`FloatMulAddFFTPolyTo`, `FloatMulSubFFTPolyTo`, math/poly/fft_ops.go:59-63, 66-70, 73-77; `CmplxMulFFTPolyTo`,
`CmplxMulAddFFTPolyTo`, `CmplxMulSubFFTPolyTo`, math/poly/fft_ops.go:87-91, 94-98, 101-105; `MulFFTPolyTo`, `MulAddFFTPolyTo`,
`MulSubFFTPolyTo`, math/poly/fft_ops.go:115-119, 122-126, 129-133. -/
noncomputable def FOp.run (op : FOp w) (out x y : ℕ) (m : Mem ℝ) : Option (Mem ℝ) :=
  match op with
  | .add => some (addCmplxTo F e.rank out x y m)
  | .sub => some (subCmplxTo F e.rank out x y m)
  | .neg => some (negCmplxTo e.rank out x m)
  | .floatMul c => some (floatMulCmplxTo F c e.rank out x m)
  | .floatMulAdd c => some (floatMulAddCmplxTo F c e.rank out x m)
  | .floatMulSub c => some (floatMulSubCmplxTo F c e.rank out x m)
  | .cmplxMul c => some (cmplxMulCmplxTo F c e.rank out x m)
  | .cmplxMulAdd c => some (cmplxMulAddCmplxTo F c e.rank out x m)
  | .cmplxMulSub c => some (cmplxMulSubCmplxTo F c e.rank out x m)
  | .mul => some (mulCmplxFl F.arith m out x y e.rank)
  | .mulAdd => some (mulAddCmplxFl F.arith m out x y e.rank)
  | .mulSub => some (mulSubCmplxFl F.arith m out x y e.rank)
  | .polyMul p => some (polyMulFFTPolyTo F e b p out x m)
  | .polyMulAdd p => some (polyMulAddFFTPolyTo F e b p out x m)
  | .polyMulSub p => some (polyMulSubFFTPolyTo F e b p out x m)
  | .fwdAdd p => some (fwdFFTAddTo F e b p out m)
  | .fwdSub p => some (fwdFFTSubTo F e b p out m)
  | .permute d => permuteTo (fun _ z => z) e.rank d out x m
  | .permuteAdd d => permuteTo (fun o z => F.arith.add o z) e.rank d out x m
  | .permuteSub d => permuteTo (fun o z => F.arith.sub o z) e.rank d out x m
  | .permuteInPlace d => permuteFFTPolyInPlace e b d out m

/-- An operation on FFT GLWE ciphertexts of rank `k`: the operation on every component.  The vectors of a ciphertext are given by their
places.  `AddFFTGLWETo`, `SubFFTGLWETo`, `NegFFTGLWETo`, tfhe/fft_glwe_ops.go:15-19, 29-33, 43-47; `FloatMulFFTGLWETo`,
`FloatMulAddFFTGLWETo`, `FloatMulSubFFTGLWETo`, tfhe/fft_glwe_ops.go:57-61, 64-68, 71-75; `CmplxMulFFTGLWETo`, `CmplxMulAddFFTGLWETo`,
`CmplxMulSubFFTGLWETo`, tfhe/fft_glwe_ops.go:85-89, 92-96, 99-103; `FFTPolyMulFFTGLWETo`, `FFTPolyMulAddFFTGLWETo`,
`FFTPolyMulSubFFTGLWETo`, with the polynomial as second argument of every component, tfhe/fft_glwe_ops.go:144-148, 151-155, 158-162;
`PermuteFFTGLWETo`, `PermuteFFTGLWEInPlace`, `PermuteAddFFTGLWETo`, `PermuteSubFFTGLWETo`, tfhe/fft_glwe_ops.go:181-185, 191-195,
203-207, 215-219.  The functions of mktfhe/fft_glwe_ops.go:15-206 are the same loops with the number of parties as rank; there
`PolyMulFFTGLWETo` and its variants are this loop as well, mktfhe/fft_glwe_ops.go:113-131. -/
noncomputable def glweRun (op : FOp w) (k : ℕ) (out x y : ℕ → ℕ) (m : Mem ℝ) : Option (Mem ℝ) :=
  (List.range (k + 1)).foldlM (fun m i => op.run F e b (out i) (x i) (y i) m) m

/-- `PolyMulFFTGLWETo`, and with `op = mulAdd` or `mulSub` `PolyMulAddFFTGLWETo` and `PolyMulSubFFTGLWETo`: the polynomial is transformed
once, into the buffer `e.buf.fpMul`.  tfhe/fft_glwe_ops.go:113-118, 121-126, 129-134. -/
noncomputable def polyMulFFTGLWETo (op : FOp w) (k fpMul : ℕ) (out x : ℕ → ℕ) (p : ℕ → BitVec w) (m : Mem ℝ) : Option (Mem ℝ) :=
  glweRun F e b op k out x (fun _ => fpMul) (fwdFFTTo F e p fpMul m)

/-- `FwdFFTGLWECiphertextTo`.  tfhe/fft_glwe_conv.go:67-71, mktfhe/fft_glwe_conv.go:64-68. -/
noncomputable def fwdFFTGLWETo (k : ℕ) (out : ℕ → ℕ) (ct : ℕ → ℕ → BitVec w) (m : Mem ℝ) : Mem ℝ :=
  (List.range (k + 1)).foldl (fun m i => fwdFFTTo F e (ct i) (out i) m) m

/-- `InvFFTGLWECiphertextTo`: component `i` of the result; the copy in the buffer is transformed, so that the argument is kept.
tfhe/fft_glwe_conv.go:81-85, mktfhe/fft_glwe_conv.go:78-82. -/
noncomputable def invFFTGLWETo (M : Machine) (w N k : ℕ) (ct : ℕ → ℕ) (m : Mem ℝ) : List (Poly N (BitVec w)) :=
  (List.range (k + 1)).map fun i => invF M e w N (m (ct i))
end

end Tfhe.Fft
