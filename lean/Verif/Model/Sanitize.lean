import Verif.Model.Bootstrap
import Verif.Model.Public

/-!
# Model of `xtfhe/sanitization.go`

`Compile` requires rank 1, tables of the size of the ring (extension factor 1) and key switching before blind rotation
(xtfhe/sanitization_params.go:36-51); the model has these fixed.  Samples are arguments, in the order in which they are drawn;
`err` arguments are the errors of `MulPolyTo`, which multiplies with the FFT.
-/
namespace Tfhe.San
open Tfhe

variable {w N : ℕ} [NeZero N]
local notation "P" => Poly N (BitVec w)

/-- `ReRandGLWETo`, the contents of `ctOut`: `r` and `e1` are discrete Gaussian, `tau` is rounded Gaussian.
xtfhe/sanitization.go:112-124. -/
def reRandGLWE (pk : Fin 2 → P) (r e1 tau : P) (err ct : Fin 2 → P) : Fin 2 → P :=
  let ctRand : Fin 2 → P := fun i => pk i * r + err i
  let ctRand := Function.update ctRand 1 (ctRand 1 + e1)
  let ctRand := Function.update ctRand 0 (ctRand 0 + tau)
  fun i => ct i + ctRand i

/-- `ReRandLWETo`, the `N + 1` elements of `ctOut`; `buf` are the old contents of the buffer `ctRandLWE`.
xtfhe/sanitization.go:128-141. -/
def reRandLWE (pk : Fin 2 → P) (r e1 : P) (tau : BitVec w) (err : Fin 2 → P) (buf ct : ℕ → BitVec w) : ℕ → BitVec w :=
  let ctRand : Fin 2 → P := fun i => pk i * r + err i
  let ctRand := Function.update ctRand 1 (ctRand 1 + e1)
  let ctRandLWE := asLWECiphertext (k := 1) ctRand ⟨0, NeZero.pos N⟩ buf
  let out : ℕ → BitVec w := fun t => ct t + ctRandLWE t
  upd out 0 (out 0 + tau)

/-- What is drawn in one call of `SanitizeLUTTo`, with the errors of the products and the old contents of the buffer. -/
structure Rand (w N : ℕ) where
  r : Poly N (BitVec w)
  e1 : Poly N (BitVec w)
  tau : BitVec w
  err : Fin 2 → Poly N (BitVec w)
  buf : ℕ → BitVec w
  /-- the polynomial of discrete Gaussian samples of the linear evaluation -/
  lin : Poly N (BitVec w)
  perr : Fin 2 → Poly N (BitVec w)
  linTau : BitVec w

/-- The multiplier of the linear evaluation: samples times `2 * MessageModulus`, plus one, times the monomial for the body.
xtfhe/sanitization.go:171-175. -/
def linPoly (p : BitVec w) (lin : P) (body : BitVec w) : P :=
  let g : P := fun i => 2 * p * lin i
  let g : P := fun i => if (i : ℕ) = 0 then g i + 1 else g i
  Poly.mono N (BitVec w) (-(modSwitch w N body : ℤ)) * g

/-- `SanitizeLUTTo`, the elements of `ctOut`, whose old contents are `out`.  xtfhe/sanitization.go:163-182. -/
def sanitizeLUT (G : Gadget P) (Gks : Gadget (BitVec w)) (bs bc : ℕ) (brk : ℕ → Fin 2 → ℕ → Fin 2 → P)
    (ksk : ℕ → ℕ → Fin (bs * bc + 1) → BitVec w) (p : BitVec w) (pk : Fin 2 → P) (ρ : Rand w N)
    (err : ℕ → ℕ → Fin 2 → P) (old : ℕ → P) (out ct : ℕ → BitVec w) (lut : ℕ → P) : ℕ → BitVec w :=
  let ctReRand := reRandLWE pk ρ.r ρ.e1 ρ.tau ρ.err ρ.buf ct
  let reRandBody := ctReRand 0
  let ctReRand := upd ctReRand 0 0
  let ctKeySwitch := ext0 (defaultKeySwitch Gks (bs * bc) (1 * N) ksk ctReRand)
  let ctRotate := blindRotate (k := 1) G 1 bs bc brk err old ctKeySwitch lut
  let g := linPoly p ρ.lin reRandBody
  let ctRotate : Fin 2 → P := fun i => ctRotate i * g + ρ.perr i
  let out := asLWECiphertext (k := 1) ctRotate ⟨0, NeZero.pos N⟩ out
  upd out 0 (out 0 + ρ.linTau)

/-- `SanitizeFuncTo`: the table is generated in a buffer with the modulus and scale of the parameters.
xtfhe/sanitization.go:144-153. -/
def sanitizeFunc (G : Gadget P) (Gks : Gadget (BitVec w)) (bs bc : ℕ) (brk : ℕ → Fin 2 → ℕ → Fin 2 → P)
    (ksk : ℕ → ℕ → Fin (bs * bc + 1) → BitVec w) (p scale : BitVec w) (raw : List (BitVec w)) (pk : Fin 2 → P) (ρ : Rand w N)
    (err : ℕ → ℕ → Fin 2 → P) (old : ℕ → P) (out ct : ℕ → BitVec w) (F : ℕ → BitVec 64) : Option (ℕ → BitVec w) :=
  (genLUTCustom 1 N p scale F raw).map fun lut =>
    sanitizeLUT G Gks bs bc brk ksk p pk ρ err old out ct (ext0 lut)

end Tfhe.San
