import Verif.Model.Bootstrap

/-!
# Model of `xtfhe/manylut_bootstrap.go`

One table holds `lutCount` functions, interleaved.  Here `N` is both the rank and the table size (`Compile` requires
them to be equal), `N = 2^logN` and `lutCount = 2^lc`.  Fourier errors are as in `Model/Bootstrap.lean`.
-/
namespace Tfhe

/-! ### Tables -/

/-- The values of all functions at `x`: `y` is allocated once, filled for the functions that are there and zero
elsewhere.  xtfhe/manylut_bootstrap.go:87, 92-94. -/
def mlValues {R : Type} [Zero R] (fs : List (ℕ → R)) (x i : ℕ) : R := ((fs[i]?).map fun f => f x).getD 0

/-- `for i := 0; i < lutCount; i++ { lutOut.Value[0].Coeffs[xx+i] = y[i] }`; `none` is the index panic.
xtfhe/manylut_bootstrap.go:96-98. -/
def mlWrite {R : Type} (c : ℕ) (y : ℕ → R) (xx : ℕ) (raw : List R) : Option (List R) :=
  (List.range c).foldlM (fun (raw : List R) i => if xx + i < raw.length then some (raw.set (xx + i) (y i)) else none) raw

/-- `for xx := start; xx < end; xx += lutCount`, as many steps as fit (rounded up).
xtfhe/manylut_bootstrap.go:95-99. -/
def mlFill {R : Type} (c : ℕ) (y : ℕ → R) (start stop : ℕ) (raw : List R) : Option (List R) :=
  (List.range ((stop - start + (c - 1)) / c)).foldlM (fun raw t => mlWrite c y (start + t * c) raw) raw

/-- One iteration of the loop over the messages.  xtfhe/manylut_bootstrap.go:89-100. -/
def mlMessage {R : Type} [Zero R] (N p c : ℕ) (fs : List (ℕ → R)) (raw : List R) (x : ℕ) : Option (List R) :=
  (divRoundInt (x * N) p).bind fun start =>
  (divRoundInt ((x + 1) * N) p).bind fun stop => mlFill c (mlValues fs x) start stop raw

/-- `GenLUTCustomFullTo` on the coefficients `raw` of the table (its old contents, `N` of them).
`2*messageModulus` is computed in `T`.  xtfhe/manylut_bootstrap.go:82-107. -/
def mlGenRaw {R : Type} [Zero R] [Neg R] (w N p c : ℕ) (fs : List (ℕ → R)) (raw : List R) : Option (List R) :=
  if c < fs.length then none
  else ((List.range p).foldlM (mlMessage N p c fs) raw).bind fun raw =>
    (divRoundInt N (2 * p % 2 ^ w)).bind fun offset =>
    (rotateInPlace raw (-(offset : ℤ))).bind fun raw =>
    negLoop offset (N - offset) raw

/-- The coefficients as a polynomial. -/
def mlPoly {R : Type} (N : ℕ) (raw : List R) : Option (Poly N R) :=
  if h : raw.length = N then some (fun j => raw[j.1]'(by rw [h]; exact j.2)) else none

/-- `GenLUTCustomFullTo`.  xtfhe/manylut_bootstrap.go:82-107. -/
def mlGenLUTFull {R : Type} [Zero R] [Neg R] (w N p c : ℕ) (fs : List (ℕ → R)) (raw : List R) :
    Option (Poly N R) := (mlGenRaw w N p c fs raw).bind (mlPoly N)

/-- `GenLUTCustomTo`; `GenLUTTo` uses the modulus and scale of the parameters.
xtfhe/manylut_bootstrap.go:23-25, 59-66. -/
def mlGenLUT {w : ℕ} (N : ℕ) (p scale : BitVec w) (c : ℕ) (fs : List (ℕ → BitVec 64)) (raw : List (BitVec w)) :
    Option (Poly N (BitVec w)) :=
  mlGenLUTFull w N p.toNat c (fs.map fun f x => encodeLWECustom (f x) p scale) raw

/-! ### Blind rotation -/

/-- `ModSwitch`: rounded to a multiple of `2^lc`.  The result is at most `2N`, so `int(...)` is exact; it may be
equal to `2N`.  The shift is `w - logN - 1 + lc` (a negative one would panic in Go; `Compile` does not exclude it).
xtfhe/manylut_bootstrap.go:159-161. -/
def mlSwitch (w logN lc : ℕ) (x : BitVec w) : ℕ := ((divRoundBits x (w - logN - 1 + lc)) <<< lc).toNat

section
variable {w N k : ℕ} [NeZero N]
local notation "P" => Poly N (BitVec w)

/-- `blindRotateOriginalTo`; `sw` is `ModSwitch` and `n` the LWE dimension.
xtfhe/manylut_bootstrap.go:233-269. -/
def mlRotateOriginal (sw : BitVec w → ℕ) (G : Gadget P) (n : ℕ) (brk : ℕ → Fin (k + 1) → ℕ → Fin (k + 1) → P)
    (err : ℕ → Fin (k + 1) → P) (ct : ℕ → BitVec w) (lut : P) : Fin (k + 1) → P :=
  let acc := accInit k lut (sw (ct 0))
  let fa := ctMul (monoSubOne N w (-(sw (ct 1) : ℤ))) (gadgetProd G.level (brk 0 0) (G.dec (acc 0)))
  let acc := invFFTAdd acc fa (err 0)
  (List.range' 1 (n - 1)).foldl (fun acc i =>
    let fa := ctMul (monoSubOne N w (-(sw (ct (i + 1)) : ℤ)))
      (extProd G.level (brk i) (fun t => G.dec (acc t)))
    invFFTAdd acc fa (err i)) acc

/-- `blindRotateBlockTo`; `bs` is the block size and `bc` the number of blocks.
xtfhe/manylut_bootstrap.go:182-229. -/
def mlRotateBlock (sw : BitVec w → ℕ) (G : Gadget P) (bs bc : ℕ) (brk : ℕ → Fin (k + 1) → ℕ → Fin (k + 1) → P)
    (err : ℕ → Fin (k + 1) → P) (ct : ℕ → BitVec w) (lut : P) : Fin (k + 1) → P :=
  let acc := accInit k lut (sw (ct 0))
  let dec := G.dec (acc 0)
  let fa := ctMul (monoSubOne N w (-(sw (ct 1) : ℤ))) (gadgetProd G.level (brk 0 0) dec)
  let fa := (List.range' 1 (bs - 1)).foldl (fun fa j =>
    ctMulAdd fa (monoSubOne N w (-(sw (ct (j + 1)) : ℤ))) (gadgetProd G.level (brk j 0) dec)) fa
  let acc := invFFTAdd acc fa (err 0)
  (List.range' 1 (bc - 1)).foldl (fun acc i =>
    let dec := fun t => G.dec (acc t)
    let fa := ctMul (monoSubOne N w (-(sw (ct (i * bs + 1)) : ℤ))) (extProd G.level (brk (i * bs)) dec)
    let fa := (List.range' (i * bs + 1) (bs - 1)).foldl (fun fa j =>
      ctMulAdd fa (monoSubOne N w (-(sw (ct (j + 1)) : ℤ))) (extProd G.level (brk j) dec)) fa
    invFFTAdd acc fa (err i)) acc

/-- `BlindRotateTo`.  The LWE dimension is `bs * bc`.  xtfhe/manylut_bootstrap.go:171-178. -/
def mlRotate (logN lc : ℕ) (G : Gadget P) (bs bc : ℕ) (brk : ℕ → Fin (k + 1) → ℕ → Fin (k + 1) → P)
    (err : ℕ → Fin (k + 1) → P) (ct : ℕ → BitVec w) (lut : P) : Fin (k + 1) → P :=
  if 1 < bs then mlRotateBlock (mlSwitch w logN lc) G bs bc brk err ct lut
  else mlRotateOriginal (mlSwitch w logN lc) G (bs * bc) brk err ct lut

/-- The loop over the outputs when key switching comes first; `none` is a panic: an output is missing, or the index
is not a coefficient.  xtfhe/manylut_bootstrap.go:146-148. -/
def mlExtract (rot : Fin (k + 1) → P) (c : ℕ) (outs : List (ℕ → BitVec w)) : Option (List (ℕ → BitVec w)) :=
  (List.range c).foldlM (fun (outs : List (ℕ → BitVec w)) i =>
    if h : i < N then
      if h' : i < outs.length then some (outs.set i (asLWECiphertext rot ⟨i, h⟩ outs[i])) else none
    else none) outs

/-- The loop over the outputs when blind rotation comes first; all outputs are extracted through one buffer.
xtfhe/manylut_bootstrap.go:151-154. -/
def mlExtractSwitch (Gks : Gadget (BitVec w)) (n : ℕ) (ksk : ℕ → ℕ → Fin (n + 1) → BitVec w) (rot : Fin (k + 1) → P)
    (c : ℕ) (st : (ℕ → BitVec w) × List (ℕ → BitVec w)) : Option ((ℕ → BitVec w) × List (ℕ → BitVec w)) :=
  (List.range c).foldlM (fun (st : (ℕ → BitVec w) × List (ℕ → BitVec w)) i =>
    if h : i < N then
      let buf := asLWECiphertext rot ⟨i, h⟩ st.1
      if i < st.2.length then some (buf, st.2.set i (ext0 (defaultKeySwitch Gks n (k * N) ksk buf))) else none
    else none) st

/-- `BootstrapLUTTo`; `outs` are the output ciphertexts (old contents), which do not share memory, and `buf` the
old contents of the extraction buffer.  xtfhe/manylut_bootstrap.go:141-156. -/
def mlBootstrapLUT (order : BootstrapOrder) (logN lc : ℕ) (G : Gadget P) (Gks : Gadget (BitVec w)) (bs bc : ℕ)
    (brk : ℕ → Fin (k + 1) → ℕ → Fin (k + 1) → P) (ksk : ℕ → ℕ → Fin (bs * bc + 1) → BitVec w)
    (err : ℕ → Fin (k + 1) → P) (buf : ℕ → BitVec w) (outs : List (ℕ → BitVec w)) (ct : ℕ → BitVec w) (lut : P) :
    Option (List (ℕ → BitVec w)) :=
  match order with
  | .ksBr =>
    let ctKeySwitch := ext0 (defaultKeySwitch Gks (bs * bc) (k * N) ksk ct)
    mlExtract (mlRotate logN lc G bs bc brk err ctKeySwitch lut) (2 ^ lc) outs
  | .brKs =>
    (mlExtractSwitch Gks (bs * bc) ksk (mlRotate logN lc G bs bc brk err ct lut) (2 ^ lc) (buf, outs)).map Prod.snd

/-- `BootstrapFuncTo`; `raw` are the old contents of the table buffer.  xtfhe/manylut_bootstrap.go:122-125. -/
def mlBootstrapFunc (order : BootstrapOrder) (logN lc : ℕ) (G : Gadget P) (Gks : Gadget (BitVec w)) (bs bc : ℕ)
    (brk : ℕ → Fin (k + 1) → ℕ → Fin (k + 1) → P) (ksk : ℕ → ℕ → Fin (bs * bc + 1) → BitVec w)
    (p scale : BitVec w) (raw : List (BitVec w))
    (err : ℕ → Fin (k + 1) → P) (buf : ℕ → BitVec w) (outs : List (ℕ → BitVec w)) (ct : ℕ → BitVec w)
    (fs : List (ℕ → BitVec 64)) : Option (List (ℕ → BitVec w)) :=
  (mlGenLUT N p scale (2 ^ lc) fs raw).bind fun lut =>
    mlBootstrapLUT order logN lc G Gks bs bc brk ksk err buf outs ct lut
end

end Tfhe
