import Verif.Model.Product
import Verif.Model.Encoder
import Verif.Model.Poly
import Verif.Model.Vec

/-!
# Model of `tfhe/bootstrap.go` and `tfhe/bootstrap_lut.go`

As in `Model/Product.lean`, what is accumulated in the Fourier domain is exact in the model and each
conversion back adds an arbitrary error (`err`).  Multiplication by monomials outside the Fourier
domain is the exact product with `X^d`; this is what `MonomialMulPolyTo` computes (`C08_monomialMulTo`).
-/
namespace Tfhe

/-! ### Modulus switching -/

/-- `modSwitchConst = float64(2*LUTSize) / math.Exp2(float64(logQ))`.  tfhe/evaluator.go:97. -/
def modSwitchConst (w L : ℕ) : ℚ := fl (fl (2 * L : ℕ) / fl (2 ^ w))

/-- `ModSwitch`.  The product is not negative, and far below `2^63` for the sizes `Compile` and memory
allow, so `int(...)` is exact.  `L > 0` (guaranteed by `Compile`).  tfhe/bootstrap.go:41-43. -/
def modSwitch (w L : ℕ) (x : BitVec w) : ℕ :=
  (goRound (fl (modSwitchConst w L * fl x.toNat))).toNat % (2 * L)

/-! ### Lookup tables -/

/-- `num.DivRound` on Go ints (here never negative).  math/num/num.go:128-130. -/
def divRoundInt (x y : ℕ) : Option ℕ := divRound 63 x y

/-- `for xx := start; xx < end; xx++ { lutRaw[xx] = y }`, `n` iterations from `i`; `none` is the index
panic.  tfhe/bootstrap_lut.go:116-118. -/
def fillLoop {R : Type} (y : R) : ℕ → ℕ → List R → Option (List R)
  | 0, _, raw => some raw
  | n + 1, i, raw => if i < raw.length then fillLoop y n (i + 1) (raw.set i y) else none

/-- One iteration of the loop over the messages.  tfhe/bootstrap_lut.go:113-118. -/
def fillMessage {R : Type} (L p : ℕ) (F : ℕ → R) (raw : List R) (x : ℕ) : Option (List R) :=
  (divRoundInt (x * L) p).bind fun start =>
  (divRoundInt ((x + 1) * L) p).bind fun stop => fillLoop (F x) (stop - start) start raw

/-- `lutRaw` at the end of `GenLUTCustomFullTo`; `raw` are its previous contents (`L` elements) and
`p` is the message modulus, `p < 2^63`.  `2*messageModulus` is computed in `T`, so modulo `2^w`.
tfhe/bootstrap_lut.go:111-125. -/
def genLUTRaw {R : Type} [Neg R] (w L p : ℕ) (F : ℕ → R) (raw : List R) : Option (List R) :=
  ((List.range p).foldlM (fillMessage L p F) raw).bind fun raw =>
  (divRoundInt L (2 * p % 2 ^ w)).bind fun offset =>
  (rotateInPlace raw (-(offset : ℤ))).bind fun raw =>
  negLoop offset (L - offset) raw

/-- `lutOut.Value[i].Coeffs[j] = lutRaw[j*f+i]`.  tfhe/bootstrap_lut.go:127-131. -/
def lutSlots {R : Type} (f N : ℕ) (raw : List R) (h : raw.length = f * N) : Fin f → Poly N R := fun i j =>
  raw[j.1 * f + i.1]'(by
    rw [h]
    calc j.1 * f + i.1 < j.1 * f + f := by have := i.2; omega
      _ = f * (j.1 + 1) := by ring
      _ ≤ f * N := Nat.mul_le_mul_left _ j.2)

/-- `GenLUTCustomFullTo`: the `f` polynomials of the lookup table, `L = f * N`.
tfhe/bootstrap_lut.go:111-132. -/
def genLUTCustomFull {R : Type} [Neg R] (w f N p : ℕ) (F : ℕ → R) (raw : List R) :
    Option (Fin f → Poly N R) :=
  (genLUTRaw w (f * N) p F raw).bind fun raw =>
  if h : raw.length = f * N then some (lutSlots f N raw h) else none

/-- `GenLUTCustomTo`; `GenLUTTo` uses the modulus and scale of the parameters.
tfhe/bootstrap_lut.go:69-71, 97-99. -/
def genLUTCustom {w : ℕ} (f N : ℕ) (p scale : BitVec w) (F : ℕ → BitVec 64) (raw : List (BitVec w)) :
    Option (Fin f → Poly N (BitVec w)) :=
  genLUTCustomFull w f N p.toNat (fun x => encodeLWECustom (F x) p scale) raw

/-! ### Blind rotation -/

section
variable {w N k : ℕ} [NeZero N]
local notation "P" => Poly N (BitVec w)

/-- `MonomialSubOneFwdFFTTo`: `X^d - 1`.  math/poly/fft.go:93-126. -/
def monoSubOne (N w : ℕ) [NeZero N] (d : ℤ) : Poly N (BitVec w) := Poly.mono N (BitVec w) d - 1

/-- `InvFFTAddToUnsafe` on every component.  tfhe/bootstrap.go:292-294. -/
def invFFTAdd (acc fa err : Fin (k + 1) → P) : Fin (k + 1) → P := fun t => acc t + (fa t + err t)

/-- The accumulator at the start: `X^-b * lut` in the body, zero masks.
tfhe/bootstrap.go:273-276, 324-327. -/
def accInit (k : ℕ) (lut : P) (b : ℕ) : Fin (k + 1) → P :=
  Fin.cons (Poly.mono N (BitVec w) (-(b : ℤ)) * lut) (fun _ => 0)

/-- `blindRotateOriginalTo`; `n` is the LWE dimension and `ct` the `n + 1` elements of the ciphertext.
tfhe/bootstrap.go:321-357. -/
def blindRotateOriginal (G : Gadget P) (n : ℕ) (brk : ℕ → Fin (k + 1) → ℕ → Fin (k + 1) → P)
    (err : ℕ → Fin (k + 1) → P) (ct : ℕ → BitVec w) (lut : P) : Fin (k + 1) → P :=
  let acc := accInit k lut (modSwitch w N (ct 0))
  let fa := ctMul (monoSubOne N w (-(modSwitch w N (ct 1) : ℤ))) (gadgetProd G.level (brk 0 0) (G.dec (acc 0)))
  let acc := invFFTAdd acc fa (err 0)
  (List.range' 1 (n - 1)).foldl (fun acc i =>
    let fa := ctMul (monoSubOne N w (-(modSwitch w N (ct (i + 1)) : ℤ)))
      (extProd G.level (brk i) (fun t => G.dec (acc t)))
    invFFTAdd acc fa (err i)) acc

/-- `blindRotateBlockTo`; `bs` is the block size and `bc` the number of blocks.
tfhe/bootstrap.go:270-317. -/
def blindRotateBlock (G : Gadget P) (bs bc : ℕ) (brk : ℕ → Fin (k + 1) → ℕ → Fin (k + 1) → P)
    (err : ℕ → Fin (k + 1) → P) (ct : ℕ → BitVec w) (lut : P) : Fin (k + 1) → P :=
  let acc := accInit k lut (modSwitch w N (ct 0))
  let dec := G.dec (acc 0)
  let fa := ctMul (monoSubOne N w (-(modSwitch w N (ct 1) : ℤ))) (gadgetProd G.level (brk 0 0) dec)
  let fa := (List.range' 1 (bs - 1)).foldl (fun fa j =>
    ctMulAdd fa (monoSubOne N w (-(modSwitch w N (ct (j + 1)) : ℤ))) (gadgetProd G.level (brk j 0) dec)) fa
  let acc := invFFTAdd acc fa (err 0)
  (List.range' 1 (bc - 1)).foldl (fun acc i =>
    let dec := fun t => G.dec (acc t)
    let fa := ctMul (monoSubOne N w (-(modSwitch w N (ct (i * bs + 1)) : ℤ))) (extProd G.level (brk (i * bs)) dec)
    let fa := (List.range' (i * bs + 1) (bs - 1)).foldl (fun fa j =>
      ctMulAdd fa (monoSubOne N w (-(modSwitch w N (ct (j + 1)) : ℤ))) (extProd G.level (brk j) dec)) fa
    invFFTAdd acc fa (err i)) acc

/-- `ctOut = ct0 - ct1` in the Fourier domain.  tfhe/bootstrap.go:108. -/
def ctSub (ct0 ct1 : Fin (k + 1) → P) : Fin (k + 1) → P := fun t => ct0 t - ct1 t

/-- The initial accumulators of `blindRotateExtendedTo` (bodies), after both loops.
tfhe/bootstrap.go:69-77. -/
def extInit (f : ℕ) (lut : ℕ → P) (b2N : ℕ) (old : ℕ → P) : ℕ → P :=
  let mono := b2N / f
  let idx := b2N % f
  let acc := (List.range' 0 idx).foldl (fun acc i =>
    upd acc (f - idx + i) (Poly.mono N (BitVec w) ((mono : ℤ) + 1) * lut i)) old
  (List.range' idx (f - idx)).foldl (fun acc i =>
    upd acc (i - idx) (Poly.mono N (BitVec w) (mono : ℤ) * lut i)) acc

/-- What one key element contributes to slot `q` of the Fourier accumulator, when the accumulator is
overwritten (first element of a block): the two cases `a2NIdx == 0` and `a2NIdx != 0`.  `blk` are the
external products of all the slots.  tfhe/bootstrap.go:99-115, 167-183, 231-242. -/
def extTerm (f a2N : ℕ) (blk : ℕ → Fin (k + 1) → P) (q : ℕ) : Fin (k + 1) → P :=
  let mono := a2N / f
  let idx := a2N % f
  if idx = 0 then ctMul (monoSubOne N w (mono : ℤ)) (blk q)
  else if q < idx then ctSub (ctMul (Poly.mono N (BitVec w) ((mono : ℤ) + 1)) (blk (f - idx + q))) (blk q)
  else ctSub (ctMul (Poly.mono N (BitVec w) (mono : ℤ)) (blk (q - idx))) (blk q)

/-- The same, added to the accumulator (other elements of a block).
tfhe/bootstrap.go:125-141, 193-209, 248-259. -/
def extTermAdd (f a2N : ℕ) (blk : ℕ → Fin (k + 1) → P) (fa : ℕ → Fin (k + 1) → P) (q : ℕ) : Fin (k + 1) → P :=
  let mono := a2N / f
  let idx := a2N % f
  if idx = 0 then ctMulAdd (fa q) (monoSubOne N w (mono : ℤ)) (blk q)
  else if q < idx then ctSub (ctMulAdd (fa q) (Poly.mono N (BitVec w) ((mono : ℤ) + 1)) (blk (f - idx + q))) (blk q)
  else ctSub (ctMulAdd (fa q) (Poly.mono N (BitVec w) (mono : ℤ)) (blk (q - idx))) (blk q)

/-- `2*lutSize - ModSwitch(x)`.  tfhe/bootstrap.go:69, 92. -/
def negSwitch (w L : ℕ) (x : BitVec w) : ℕ := 2 * L - modSwitch w L x

/-- One block of `blindRotateExtendedTo`: elements `j0, …, j0 + bs - 1`; `prod j q` is the product of key
element `j` with slot `q` of the accumulator.  tfhe/bootstrap.go:92-148, 160-216, 228-263. -/
def extBlock (f L bs j0 : ℕ) (prod : ℕ → ℕ → Fin (k + 1) → P) (ct : ℕ → BitVec w) (err : ℕ → Fin (k + 1) → P)
    (acc : ℕ → Fin (k + 1) → P) : ℕ → Fin (k + 1) → P :=
  let fa := extTerm f (negSwitch w L (ct (j0 + 1))) (prod j0)
  let fa := (List.range' (j0 + 1) (bs - 1)).foldl (fun fa j =>
    extTermAdd f (negSwitch w L (ct (j + 1))) (prod j) fa) fa
  fun q => invFFTAdd (acc q) (fa q) (err q)

/-- `blindRotateExtendedTo`: slots `0 ≤ q < f`, table size `L = f * N`.  The last block computes slot 0
only; here all the slots are computed and slot 0 is returned.  `old` are the previous contents of the
accumulators.  tfhe/bootstrap.go:66-266. -/
def blindRotateExtended (G : Gadget P) (f bs bc : ℕ) (brk : ℕ → Fin (k + 1) → ℕ → Fin (k + 1) → P)
    (err : ℕ → ℕ → Fin (k + 1) → P) (old : ℕ → P) (ct : ℕ → BitVec w) (lut : ℕ → P) : Fin (k + 1) → P :=
  let L := f * N
  let body := extInit f lut (negSwitch w L (ct 0)) old
  let acc : ℕ → Fin (k + 1) → P := fun q => Fin.cons (body q) (fun _ => 0)
  let acc := extBlock f L bs 0 (fun j q => gadgetProd G.level (brk j 0) (G.dec (acc q 0))) ct (err 0) acc
  let acc := (List.range' 1 (bc - 2)).foldl (fun acc i =>
    extBlock f L bs (i * bs) (fun j q => extProd G.level (brk j) (fun t => G.dec (acc q t))) ct (err i) acc) acc
  let acc := extBlock f L bs (bc * bs - bs) (fun j q => extProd G.level (brk j) (fun t => G.dec (acc q t))) ct
    (err (bc - 1)) acc
  acc 0

/-- `BlindRotateTo`: the algorithm is chosen by the extension factor `f = lutSize / polyRank` and the block
size.  `lut q` is slot `q` of the table, the LWE dimension is `bs * bc`.  tfhe/bootstrap.go:53-62. -/
def blindRotate (G : Gadget P) (f bs bc : ℕ) (brk : ℕ → Fin (k + 1) → ℕ → Fin (k + 1) → P)
    (err : ℕ → ℕ → Fin (k + 1) → P) (old : ℕ → P) (ct : ℕ → BitVec w) (lut : ℕ → P) : Fin (k + 1) → P :=
  if 1 < f then blindRotateExtended G f bs bc brk err old ct lut
  else if 1 < bs then blindRotateBlock G bs bc brk (fun i => err i 0) ct (lut 0)
  else blindRotateOriginal G (bs * bc) brk (fun i => err i 0) ct (lut 0)
end

/-! ### Bootstrapping -/

/-- `DefaultKeySwitchTo`: `ct` has `dim + 1` elements, the first `n + 1` are copied and the others are
switched.  tfhe/bootstrap.go:371-381. -/
def defaultKeySwitch {R : Type} [CommRing R] (G : Gadget R) (n dim : ℕ) (ksk : ℕ → ℕ → Fin (n + 1) → R)
    (ct : ℕ → R) : Fin (n + 1) → R :=
  (List.range' n (dim - n)).foldl (fun out i => gadgetProdAdd G.level out (ksk (i - n)) (G.dec (ct (i + 1))))
    (fun t => ct t)

/-- `BootstrapOrder`.  tfhe/params.go:205-225. -/
inductive BootstrapOrder where
  /-- `OrderKeySwitchBlindRotate` -/
  | ksBr
  /-- `OrderBlindRotateKeySwitch` -/
  | brKs

section
variable {w N k : ℕ} [NeZero N]
local notation "P" => Poly N (BitVec w)

/-- `BootstrapLUTTo`, the elements written to `ctOut` (its old contents are `out`, those of the buffer for
the extraction are `buf`).  The output and the input may be the same slice: every buffer is separate
and the input is not read after the first write to the output.  tfhe/bootstrap.go:27-38. -/
def bootstrapLUT (order : BootstrapOrder) (G : Gadget P) (Gks : Gadget (BitVec w)) (f bs bc : ℕ)
    (brk : ℕ → Fin (k + 1) → ℕ → Fin (k + 1) → P) (ksk : ℕ → ℕ → Fin (bs * bc + 1) → BitVec w)
    (err : ℕ → ℕ → Fin (k + 1) → P) (old : ℕ → P) (buf out : ℕ → BitVec w) (ct : ℕ → BitVec w) (lut : ℕ → P) :
    ℕ → BitVec w :=
  match order with
  | .ksBr =>
    let ctKeySwitch := ext0 (defaultKeySwitch Gks (bs * bc) (k * N) ksk ct)
    let ctRotate := blindRotate G f bs bc brk err old ctKeySwitch lut
    asLWECiphertext ctRotate ⟨0, NeZero.pos N⟩ out
  | .brKs =>
    let ctRotate := blindRotate G f bs bc brk err old ct lut
    let ctExtract := asLWECiphertext ctRotate ⟨0, NeZero.pos N⟩ buf
    ext0 (defaultKeySwitch Gks (bs * bc) (k * N) ksk ctExtract)

/-- `BootstrapFuncTo`: the table is generated in a buffer.  tfhe/bootstrap.go:8-17. -/
def bootstrapFunc (order : BootstrapOrder) (G : Gadget P) (Gks : Gadget (BitVec w)) (f bs bc : ℕ)
    (brk : ℕ → Fin (k + 1) → ℕ → Fin (k + 1) → P) (ksk : ℕ → ℕ → Fin (bs * bc + 1) → BitVec w)
    (p scale : BitVec w) (raw : List (BitVec w))
    (err : ℕ → ℕ → Fin (k + 1) → P) (old : ℕ → P) (buf out : ℕ → BitVec w) (ct : ℕ → BitVec w)
    (F : ℕ → BitVec 64) : Option (ℕ → BitVec w) :=
  (genLUTCustom f N p scale F raw).map fun lut =>
    bootstrapLUT order G Gks f bs bc brk ksk err old buf out ct (ext0 lut)
end

end Tfhe
