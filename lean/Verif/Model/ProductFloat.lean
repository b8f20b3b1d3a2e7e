import Verif.Model.FftFloat
import Verif.Model.Bootstrap

/-!
# Products, key switching and bootstrapping in floating-point arithmetic

The functions of `Model/Product.lean` and `Model/Bootstrap.lean` that work in the Fourier domain, with the transforms and the
element-wise operations of `Model/FftFloat.lean` in place of exact polynomials and of the arbitrary errors.  A polynomial in the Fourier
domain is the list of its `float64` elements, read by position.  Buffers that a call overwrites as a whole start out as zero here.
-/
namespace Tfhe.Fft
open Tfhe

/-- A platform together with its conversion `int64(x)` of a float that is the integer `x`.  Go leaves the result to the implementation
when `x` does not fit. -/
structure Machine extends Float64 where
  int64 : ℤ → ℤ

/-- `FFTPoly`. -/
abbrev FPoly := ℕ → ℝ

section
variable (M : Machine) (e : Eval ℝ)

/-- Operands of the element-wise loops: vector 0 is the output. -/
def operands (out x y : FPoly) : Mem ℝ := fun v => if v = 0 then out else if v = 1 then x else y

/-- `MulFFTPolyTo`.  math/poly/fft_ops.go:115-119. -/
noncomputable def mulF (x y : FPoly) : FPoly := mulCmplxFl M.arith (operands (fun _ => 0) x y) 0 1 2 e.rank 0
/-- `MulAddFFTPolyTo`.  math/poly/fft_ops.go:122-126. -/
noncomputable def mulAddF (out x y : FPoly) : FPoly := mulAddCmplxFl M.arith (operands out x y) 0 1 2 e.rank 0
/-- `MulSubFFTPolyTo`.  math/poly/fft_ops.go:129-133. -/
noncomputable def mulSubF (out x y : FPoly) : FPoly := mulSubCmplxFl M.arith (operands out x y) 0 1 2 e.rank 0
/-- `SubFFTPolyTo`.  math/poly/fft_ops.go:31-35. -/
noncomputable def subF (x y : FPoly) : FPoly :=
  cmplxLoop (fun _ a b => (M.arith.sub a.1 b.1, M.arith.sub a.2 b.2)) (operands (fun _ => 0) x y) 0 1 2 e.rank 0
/-- `MonomialFwdFFTTo`.  math/poly/fft.go:46-79. -/
noncomputable def monoF (d : ℤ) : FPoly := monomialFwdFFT e (fun _ => 0) d
/-- `MonomialSubOneFwdFFTTo`.  math/poly/fft.go:93-126. -/
noncomputable def monoSubOneF (d : ℤ) : FPoly :=
  let d := (d % (2 * e.rank)).toNat
  setAll (fun _ => 0) e.rank fun a =>
    let c := e.twMono (e.twMonoIdx a * d % (2 * e.rank))
    (M.arith.sub c.1 1, c.2)
/-- `FwdFFTTo`.  math/poly/fft.go:13-18. -/
noncomputable def fwdF {w N : ℕ} (p : Poly N (BitVec w)) : FPoly := fwdFFTFl M.arith e (fun _ => 0) (ext0 p)
/-- `InvFFTToUnsafe`, and what `InvFFTAddToUnsafe` adds and `InvFFTSubToUnsafe` subtracts.
math/poly/fft.go:169-199 and math/poly/asm_fold.go:161-236. -/
noncomputable def invF (w N : ℕ) (fp : FPoly) : Poly N (BitVec w) := fun i =>
  let y := invFFTInPlaceFl M.arith e.rank fp e.twInv
  let a := if i.1 < e.rank / 2 then 8 * (i.1 / 4) + i.1 % 4 else 8 * ((i.1 - e.rank / 2) / 4) + (i.1 - e.rank / 2) % 4 + 4
  BitVec.ofInt w (M.int64 (floatModQFl M.arith (2 ^ w) (y a)))

variable {w N k : ℕ}
local notation "P" => Poly N (BitVec w)

/-- `FwdFFTGLWECiphertextTo` and its versions for GLev and GGSW ciphertexts: every polynomial is transformed.
tfhe/fft_glwe_conv.go:67-71, 95-99, 123-127. -/
noncomputable def fwdCt (ct : Fin (k + 1) → P) : Fin (k + 1) → FPoly := fun t => fwdF M e (ct t)

/-- `FFTPolyMulFFTGLWETo`.  tfhe/fft_glwe_ops.go:144-148. -/
noncomputable def fctMul (d : FPoly) (ct : Fin (k + 1) → FPoly) : Fin (k + 1) → FPoly := fun t => mulF M e (ct t) d
/-- `FFTPolyMulAddFFTGLWETo`.  tfhe/fft_glwe_ops.go:151-155. -/
noncomputable def fctMulAdd (acc : Fin (k + 1) → FPoly) (d : FPoly) (ct : Fin (k + 1) → FPoly) : Fin (k + 1) → FPoly :=
  fun t => mulAddF M e (acc t) (ct t) d
/-- `SubFFTGLWETo`.  tfhe/fft_glwe_ops.go:29-33. -/
noncomputable def fctSub (ct0 ct1 : Fin (k + 1) → FPoly) : Fin (k + 1) → FPoly := fun t => subF M e (ct0 t) (ct1 t)

/-- `GadgetProdFFTGLWETo`.  tfhe/product.go:114-119. -/
noncomputable def gadgetProdF (level : ℕ) (lev : ℕ → Fin (k + 1) → FPoly) (d : ℕ → FPoly) : Fin (k + 1) → FPoly :=
  (List.range' 1 (level - 1)).foldl (fun acc j => fctMulAdd M e acc (d j) (lev j)) (fctMul M e (d 0) (lev 0))
/-- `GadgetProdAddFFTGLWETo`.  tfhe/product.go:122-126. -/
noncomputable def gadgetProdAddF (level : ℕ) (acc : Fin (k + 1) → FPoly) (lev : ℕ → Fin (k + 1) → FPoly) (d : ℕ → FPoly) :
    Fin (k + 1) → FPoly :=
  (List.range level).foldl (fun acc j => fctMulAdd M e acc (d j) (lev j)) acc
/-- `ExternalProdFFTGLWETo`.  tfhe/product.go:276-287. -/
noncomputable def extProdF (level : ℕ) (ct : Fin (k + 1) → ℕ → Fin (k + 1) → FPoly) (d : Fin (k + 1) → ℕ → FPoly) :
    Fin (k + 1) → FPoly :=
  Fin.foldl k (fun acc i => gadgetProdAddF M e level acc (ct i.succ) (d i.succ)) (gadgetProdF M e level (ct 0) (d 0))
/-- The accumulation of `KeySwitchGLWETo`.  tfhe/keyswitch.go:46-57. -/
noncomputable def keySwitchAccF (level : ℕ) {n : ℕ} (ksk : Fin (n + 1) → ℕ → Fin (k + 1) → FPoly) (d : Fin (n + 1) → ℕ → FPoly) :
    Fin (k + 1) → FPoly :=
  Fin.foldl n (fun acc i => gadgetProdAddF M e level acc (ksk i.succ) (d i.succ)) (gadgetProdF M e level (ksk 0) (d 0))

/-- `DecomposePolyTo` followed by `FwdFFTTo` of every digit; `FourierDecomposePolyTo`.  tfhe/product.go:58-61,
tfhe/bootstrap.go:278-281. -/
noncomputable def decF (G : Gadget P) (p : P) : ℕ → FPoly := fun j => fwdF M e (G.dec p j)

/-- `GadgetProdGLWETo`.  tfhe/product.go:54-71. -/
noncomputable def gadgetProdGLWEF (G : Gadget P) (lev : ℕ → Fin (k + 1) → FPoly) (p : P) : Fin (k + 1) → P :=
  fun t => invF M e w N (gadgetProdF M e G.level lev (decF M e G p) t)
/-- `GadgetProdAddGLWETo`.  tfhe/product.go:74-91. -/
noncomputable def gadgetProdAddGLWEF (G : Gadget P) (out : Fin (k + 1) → P) (lev : ℕ → Fin (k + 1) → FPoly) (p : P) :
    Fin (k + 1) → P :=
  fun t => out t + invF M e w N (gadgetProdF M e G.level lev (decF M e G p) t)
/-- `GadgetProdSubGLWETo`.  tfhe/product.go:94-111. -/
noncomputable def gadgetProdSubGLWEF (G : Gadget P) (out : Fin (k + 1) → P) (lev : ℕ → Fin (k + 1) → FPoly) (p : P) :
    Fin (k + 1) → P :=
  fun t => out t - invF M e w N (gadgetProdF M e G.level lev (decF M e G p) t)

section
variable [NeZero N]

/-- `ExternalProdGLWETo`.  tfhe/product.go:210-229. -/
noncomputable def externalProdToF (G : Gadget P) (k out : ℕ) (gsw : Fin (k + 1) → ℕ → Fin (k + 1) → FPoly) (ct : ℕ)
    (m : Mem P) : Mem P :=
  let acc := extProdF M e G.level gsw (fun i => decF M e G (m ct i))
  mapLoopI (fun i _ _ _ => ext0 (fun t => invF M e w N (acc t)) i) out out out (List.range (k + 1)) m
/-- `ExternalProdAddGLWETo`.  tfhe/product.go:232-251. -/
noncomputable def externalProdAddToF (G : Gadget P) (k out : ℕ) (gsw : Fin (k + 1) → ℕ → Fin (k + 1) → FPoly) (ct : ℕ)
    (m : Mem P) : Mem P :=
  let acc := extProdF M e G.level gsw (fun i => decF M e G (m ct i))
  mapLoopI (fun i o _ _ => o + ext0 (fun t => invF M e w N (acc t)) i) out out out (List.range (k + 1)) m
/-- `ExternalProdSubGLWETo`.  tfhe/product.go:254-273. -/
noncomputable def externalProdSubToF (G : Gadget P) (k out : ℕ) (gsw : Fin (k + 1) → ℕ → Fin (k + 1) → FPoly) (ct : ℕ)
    (m : Mem P) : Mem P :=
  let acc := extProdF M e G.level gsw (fun i => decF M e G (m ct i))
  mapLoopI (fun i o _ _ => o - ext0 (fun t => invF M e w N (acc t)) i) out out out (List.range (k + 1)) m
/-- `CMuxTo`.  tfhe/product.go:317-321. -/
noncomputable def cmuxToF (G : Gadget P) (k out : ℕ) (gsw : Fin (k + 1) → ℕ → Fin (k + 1) → FPoly) (ct0 ct1 buf : ℕ)
    (m : Mem P) : Mem P :=
  let m := mapLoopI (fun _ _ a _ => a) out ct0 ct0 (List.range (k + 1)) m
  let m := subGLWETo k buf ct1 ct0 m
  externalProdAddToF M e G k out gsw buf m
/-- `KeySwitchGLWETo`.  tfhe/keyswitch.go:43-64. -/
noncomputable def keySwitchToF (G : Gadget P) (k out : ℕ) {n : ℕ} (ksk : Fin (n + 1) → ℕ → Fin (k + 1) → FPoly) (ct : ℕ)
    (m : Mem P) : Mem P :=
  let acc := keySwitchAccF M e G.level ksk (fun i => decF M e G (m ct (i + 1)))
  let m := m.write out 0 (m ct 0)
  let m := m.write out 0 (m out 0 + invF M e w N (acc 0))
  mapLoopI (fun i _ _ _ => ext0 (fun t => invF M e w N (acc t)) i) out out out (List.range' 1 k) m

/-! ### Blind rotation -/

/-- `InvFFTAddToUnsafe` on every component.  tfhe/bootstrap.go:292-294. -/
noncomputable def invAddF (acc : Fin (k + 1) → P) (fa : Fin (k + 1) → FPoly) : Fin (k + 1) → P :=
  fun t => acc t + invF M e w N (fa t)

/-- `blindRotateOriginalTo`.  tfhe/bootstrap.go:321-357. -/
noncomputable def blindRotateOriginalF (G : Gadget P) (n : ℕ) (brk : ℕ → Fin (k + 1) → ℕ → Fin (k + 1) → FPoly)
    (ct : ℕ → BitVec w) (lut : P) : Fin (k + 1) → P :=
  let acc := accInit k lut (modSwitch w N (ct 0))
  let fa := fctMul M e (monoSubOneF M e (-(modSwitch w N (ct 1) : ℤ))) (gadgetProdF M e G.level (brk 0 0) (decF M e G (acc 0)))
  let acc := invAddF M e acc fa
  (List.range' 1 (n - 1)).foldl (fun acc i =>
    let fa := fctMul M e (monoSubOneF M e (-(modSwitch w N (ct (i + 1)) : ℤ)))
      (extProdF M e G.level (brk i) (fun t => decF M e G (acc t)))
    invAddF M e acc fa) acc

/-- `blindRotateBlockTo`.  tfhe/bootstrap.go:270-317. -/
noncomputable def blindRotateBlockF (G : Gadget P) (bs bc : ℕ) (brk : ℕ → Fin (k + 1) → ℕ → Fin (k + 1) → FPoly)
    (ct : ℕ → BitVec w) (lut : P) : Fin (k + 1) → P :=
  let acc := accInit k lut (modSwitch w N (ct 0))
  let dec := decF M e G (acc 0)
  let fa := fctMul M e (monoSubOneF M e (-(modSwitch w N (ct 1) : ℤ))) (gadgetProdF M e G.level (brk 0 0) dec)
  let fa := (List.range' 1 (bs - 1)).foldl (fun fa j =>
    fctMulAdd M e fa (monoSubOneF M e (-(modSwitch w N (ct (j + 1)) : ℤ))) (gadgetProdF M e G.level (brk j 0) dec)) fa
  let acc := invAddF M e acc fa
  (List.range' 1 (bc - 1)).foldl (fun acc i =>
    let dec := fun t => decF M e G (acc t)
    let fa := fctMul M e (monoSubOneF M e (-(modSwitch w N (ct (i * bs + 1)) : ℤ))) (extProdF M e G.level (brk (i * bs)) dec)
    let fa := (List.range' (i * bs + 1) (bs - 1)).foldl (fun fa j =>
      fctMulAdd M e fa (monoSubOneF M e (-(modSwitch w N (ct (j + 1)) : ℤ))) (extProdF M e G.level (brk j) dec)) fa
    invAddF M e acc fa) acc

/-- One key element of a block, overwriting the accumulator.  tfhe/bootstrap.go:99-115, 167-183, 231-242. -/
noncomputable def extTermF (f a2N : ℕ) (blk : ℕ → Fin (k + 1) → FPoly) (q : ℕ) : Fin (k + 1) → FPoly :=
  let mono := a2N / f
  let idx := a2N % f
  if idx = 0 then fctMul M e (monoSubOneF M e (mono : ℤ)) (blk q)
  else if q < idx then fctSub M e (fctMul M e (monoF e ((mono : ℤ) + 1)) (blk (f - idx + q))) (blk q)
  else fctSub M e (fctMul M e (monoF e (mono : ℤ)) (blk (q - idx))) (blk q)

/-- One key element of a block, added to the accumulator.  tfhe/bootstrap.go:125-141, 193-209, 248-259. -/
noncomputable def extTermAddF (f a2N : ℕ) (blk : ℕ → Fin (k + 1) → FPoly) (fa : ℕ → Fin (k + 1) → FPoly) (q : ℕ) :
    Fin (k + 1) → FPoly :=
  let mono := a2N / f
  let idx := a2N % f
  if idx = 0 then fctMulAdd M e (fa q) (monoSubOneF M e (mono : ℤ)) (blk q)
  else if q < idx then fctSub M e (fctMulAdd M e (fa q) (monoF e ((mono : ℤ) + 1)) (blk (f - idx + q))) (blk q)
  else fctSub M e (fctMulAdd M e (fa q) (monoF e (mono : ℤ)) (blk (q - idx))) (blk q)

/-- One block of `blindRotateExtendedTo`.  tfhe/bootstrap.go:92-148, 160-216, 228-263. -/
noncomputable def extBlockF (f L bs j0 : ℕ) (prod : ℕ → ℕ → Fin (k + 1) → FPoly) (ct : ℕ → BitVec w)
    (acc : ℕ → Fin (k + 1) → P) : ℕ → Fin (k + 1) → P :=
  let fa := extTermF M e f (negSwitch w L (ct (j0 + 1))) (prod j0)
  let fa := (List.range' (j0 + 1) (bs - 1)).foldl (fun fa j =>
    extTermAddF M e f (negSwitch w L (ct (j + 1))) (prod j) fa) fa
  fun q => invAddF M e (acc q) (fa q)

/-- `blindRotateExtendedTo`.  tfhe/bootstrap.go:66-266. -/
noncomputable def blindRotateExtendedF (G : Gadget P) (f bs bc : ℕ) (brk : ℕ → Fin (k + 1) → ℕ → Fin (k + 1) → FPoly)
    (old : ℕ → P) (ct : ℕ → BitVec w) (lut : ℕ → P) : Fin (k + 1) → P :=
  let L := f * N
  let body := extInit f lut (negSwitch w L (ct 0)) old
  let acc : ℕ → Fin (k + 1) → P := fun q => Fin.cons (body q) (fun _ => 0)
  let acc := extBlockF M e f L bs 0 (fun j q => gadgetProdF M e G.level (brk j 0) (decF M e G (acc q 0))) ct acc
  let acc := (List.range' 1 (bc - 2)).foldl (fun acc i =>
    extBlockF M e f L bs (i * bs) (fun j q => extProdF M e G.level (brk j) (fun t => decF M e G (acc q t))) ct acc) acc
  let acc := extBlockF M e f L bs (bc * bs - bs) (fun j q => extProdF M e G.level (brk j) (fun t => decF M e G (acc q t))) ct acc
  acc 0

/-- `BlindRotateTo`.  tfhe/bootstrap.go:53-62. -/
noncomputable def blindRotateF (G : Gadget P) (f bs bc : ℕ) (brk : ℕ → Fin (k + 1) → ℕ → Fin (k + 1) → FPoly)
    (old : ℕ → P) (ct : ℕ → BitVec w) (lut : ℕ → P) : Fin (k + 1) → P :=
  if 1 < f then blindRotateExtendedF M e G f bs bc brk old ct lut
  else if 1 < bs then blindRotateBlockF M e G bs bc brk ct (lut 0)
  else blindRotateOriginalF M e G (bs * bc) brk ct (lut 0)

/-- `BootstrapLUTTo`.  tfhe/bootstrap.go:27-38. -/
noncomputable def bootstrapLUTF (order : BootstrapOrder) (G : Gadget P) (Gks : Gadget (BitVec w)) (f bs bc : ℕ)
    (brk : ℕ → Fin (k + 1) → ℕ → Fin (k + 1) → FPoly) (ksk : ℕ → ℕ → Fin (bs * bc + 1) → BitVec w)
    (old : ℕ → P) (buf out : ℕ → BitVec w) (ct : ℕ → BitVec w) (lut : ℕ → P) : ℕ → BitVec w :=
  match order with
  | .ksBr =>
    let ctKeySwitch := ext0 (defaultKeySwitch Gks (bs * bc) (k * N) ksk ct)
    let ctRotate := blindRotateF M e G f bs bc brk old ctKeySwitch lut
    asLWECiphertext ctRotate ⟨0, NeZero.pos N⟩ out
  | .brKs =>
    let ctRotate := blindRotateF M e G f bs bc brk old ct lut
    let ctExtract := asLWECiphertext ctRotate ⟨0, NeZero.pos N⟩ buf
    ext0 (defaultKeySwitch Gks (bs * bc) (k * N) ksk ctExtract)

/-- `BootstrapFuncTo`.  tfhe/bootstrap.go:8-17. -/
noncomputable def bootstrapFuncF (order : BootstrapOrder) (G : Gadget P) (Gks : Gadget (BitVec w)) (f bs bc : ℕ)
    (brk : ℕ → Fin (k + 1) → ℕ → Fin (k + 1) → FPoly) (ksk : ℕ → ℕ → Fin (bs * bc + 1) → BitVec w)
    (p scale : BitVec w) (raw : List (BitVec w)) (old : ℕ → P) (buf out : ℕ → BitVec w) (ct : ℕ → BitVec w)
    (F : ℕ → BitVec 64) : Option (ℕ → BitVec w) :=
  (genLUTCustom f N p scale F raw).map fun lut =>
    bootstrapLUTF M e order G Gks f bs bc brk ksk old buf out ct (ext0 lut)
end
end

end Tfhe.Fft
