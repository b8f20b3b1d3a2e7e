import Verif.Model.EncFloat
import Verif.Model.MkEncFloat
import Verif.Model.ProductFloat

/-!
# Encryption to and decryption from the Fourier domain

`tfhe/fft_glwe_enc.go`, the leveled parts of `tfhe/lwe_enc.go` and `tfhe/glwe_enc.go`, and `EncryptFFTGLWEPlaintextTo` and `DecryptFFTGLWEPhaseTo` of
`mktfhe`, with the transforms in `float64` and the noise read by the Gaussian sampler from a list of words.  As in
`Model/EncFloat.lean`, what the uniform sampler delivers is an argument (`mask`), and `old…` is what buffers contain that the
functions find and overwrite.
-/
namespace Tfhe.Enc
open Tfhe Rng Gauss Fft

section
variable (K : Machine) (M : Libm) {w N k : ℕ} (signed : Bool) (e : Eval ℝ)

/-- `FwdFFTGLWECiphertextTo`.  tfhe/fft_glwe_conv.go:67-71. -/
noncomputable def fwdFFTCt (old : Fin (k + 1) → FPoly) (ct : Fin (k + 1) → Poly N (BitVec w)) : Fin (k + 1) → FPoly :=
  fun t => fwdFFTFl K.arith e (old t) (arr (ct t))

/-- `InvFFTGLWECiphertextTo`.  tfhe/fft_glwe_conv.go:81-85, math/poly/fft.go:136-143. -/
noncomputable def invFFTCt (ct : Fin (k + 1) → FPoly) : Fin (k + 1) → Poly N (BitVec w) := fun t => invF K e w N (ct t)

/-- `EncryptFFTGLWEPlaintextTo`; `ct` is `ctOut` before the call.  tfhe/fft_glwe_enc.go:27-30. -/
noncomputable def encryptFFTGLWE (σ : ℝ) (old fsk : Fin k → ℕ → ℝ) (mask : Fin k → Poly N (BitVec w)) (ct : Fin (k + 1) → FPoly)
    (pt : Poly N (BitVec w)) : Stream (Fin (k + 1) → FPoly) := do
  let buf ← encryptGLWEBody K.toFloat64 M signed e σ old fsk mask pt
  pure (fwdFFTCt K e ct buf)

/-- `DecryptFFTGLWEPhaseTo`.  tfhe/fft_glwe_enc.go:50-53. -/
noncomputable def decryptFFTGLWEPhase (old fsk : Fin k → ℕ → ℝ) (ct : Fin (k + 1) → FPoly) : Option (Poly N (BitVec w)) :=
  decryptGLWEPhase K.toFloat64 signed e old fsk (invFFTCt K e ct)

/-- `pOut = p * sk`.  math/poly/poly_mul.go:231-273. -/
noncomputable def mulShort (old : ℕ → ℝ) (out p : Poly N (BitVec w)) (fsk : ℕ → ℝ) : Option (Poly N (BitVec w)) :=
  (shortMulToFl K.arith signed e old (Poly.toList out) (arr p) fsk).map (ofCoeffs N)

/-- `EncryptLevScalarTo`; `ct` is `ctOut` before the call.  tfhe/lwe_enc.go:68-73. -/
noncomputable def encryptLevScalar {n : ℕ} (g : GadgetParams w) (σ : ℝ) (sk : Fin n → BitVec w) (mask : ℕ → Fin n → BitVec w)
    (ct : ℕ → Fin (n + 1) → BitVec w) (c : BitVec w) : Stream (ℕ → Fin (n + 1) → BitVec w) :=
  (List.range g.level).foldlM (fun ct j => do
    let row ← encryptLWE M σ sk (mask j) (c <<< g.logBaseQ j)
    pure (Function.update ct j row)) ct

/-- `EncryptGSWScalarTo`; the inner loop is that of `EncryptLevScalarTo` for the product of `c` and an element of the key.
tfhe/lwe_enc.go:104-113. -/
noncomputable def encryptGSWScalar {n : ℕ} (g : GadgetParams w) (σ : ℝ) (sk : Fin n → BitVec w)
    (mask : Fin (n + 1) → ℕ → Fin n → BitVec w) (ct : Fin (n + 1) → ℕ → Fin (n + 1) → BitVec w) (c : BitVec w) :
    Stream (Fin (n + 1) → ℕ → Fin (n + 1) → BitVec w) := do
  let lev ← encryptLevScalar M g σ sk (mask 0) (ct 0) c
  (List.finRange n).foldlM (fun ct (i : Fin n) => do
    let lev ← encryptLevScalar M g σ sk (mask i.succ) (ct i.succ) (sk i * c)
    pure (Function.update ct i.succ lev)) (Function.update ct 0 lev)

variable [NeZero N]

/-- `EncryptGLevPolyTo`; `ct` is `ctOut` before the call.  tfhe/glwe_enc.go:99-104. -/
noncomputable def encryptGLevPoly (g : GadgetParams w) (σ : ℝ) (old : ℕ → Fin k → ℕ → ℝ) (fsk : Fin k → ℕ → ℝ)
    (mask : ℕ → Fin k → Poly N (BitVec w)) (ct : ℕ → Fin (k + 1) → Poly N (BitVec w)) (p : Poly N (BitVec w)) :
    Stream (ℕ → Fin (k + 1) → Poly N (BitVec w)) :=
  (List.range g.level).foldlM (fun ct j => do
    let row ← encryptGLWEBody K.toFloat64 M signed e σ (old j) fsk (mask j) (Poly.C N (g.baseQ j) * p)
    pure (Function.update ct j row)) ct

/-- `EncryptFFTGLevPolyTo`.  tfhe/fft_glwe_enc.go:81-87. -/
noncomputable def encryptFFTGLevPoly (g : GadgetParams w) (σ : ℝ) (old : ℕ → Fin k → ℕ → ℝ) (fsk : Fin k → ℕ → ℝ)
    (mask : ℕ → Fin k → Poly N (BitVec w)) (ct : ℕ → Fin (k + 1) → FPoly) (p : Poly N (BitVec w)) :
    Stream (ℕ → Fin (k + 1) → FPoly) :=
  (List.range g.level).foldlM (fun ct j => do
    let buf ← encryptGLWEBody K.toFloat64 M signed e σ (old j) fsk (mask j) (Poly.C N (g.baseQ j) * p)
    pure (Function.update ct j (fwdFFTCt K e (ct j) buf))) ct

/-- `EncryptGGSWPolyTo`; the inner loop is that of `EncryptGLevPolyTo` for the product of `p` and a polynomial of the key, which is
computed in a buffer with contents `ptGGSW`.  tfhe/glwe_enc.go:168-177. -/
noncomputable def encryptGGSWPoly (g : GadgetParams w) (σ : ℝ) (oldG : Fin k → ℕ → ℝ) (old : Fin (k + 1) → ℕ → Fin k → ℕ → ℝ)
    (fsk : Fin k → ℕ → ℝ) (mask : Fin (k + 1) → ℕ → Fin k → Poly N (BitVec w)) (ptGGSW : Fin k → Poly N (BitVec w))
    (ct : Fin (k + 1) → ℕ → Fin (k + 1) → Poly N (BitVec w)) (p : Poly N (BitVec w)) :
    Stream (Fin (k + 1) → ℕ → Fin (k + 1) → Poly N (BitVec w)) := do
  let lev ← encryptGLevPoly K M signed e g σ (old 0) fsk (mask 0) (ct 0) p
  (List.finRange k).foldlM (fun ct (i : Fin k) => do
    let q ← ofPanic (mulShort K signed e (oldG i) (ptGGSW i) p (fsk i))
    let lev ← encryptGLevPoly K M signed e g σ (old i.succ) fsk (mask i.succ) (ct i.succ) q
    pure (Function.update ct i.succ lev)) (Function.update ct 0 lev)

/-- `EncryptFFTGGSWPolyTo`.  tfhe/fft_glwe_enc.go:147-157. -/
noncomputable def encryptFFTGGSWPoly (g : GadgetParams w) (σ : ℝ) (oldG : Fin k → ℕ → ℝ) (old : Fin (k + 1) → ℕ → Fin k → ℕ → ℝ)
    (fsk : Fin k → ℕ → ℝ) (mask : Fin (k + 1) → ℕ → Fin k → Poly N (BitVec w)) (ptGGSW : Fin k → Poly N (BitVec w))
    (ct : Fin (k + 1) → ℕ → Fin (k + 1) → FPoly) (p : Poly N (BitVec w)) :
    Stream (Fin (k + 1) → ℕ → Fin (k + 1) → FPoly) := do
  let lev ← encryptFFTGLevPoly K M signed e g σ (old 0) fsk (mask 0) (ct 0) p
  (List.finRange k).foldlM (fun ct (i : Fin k) => do
    let q ← ofPanic (mulShort K signed e (oldG i) (ptGGSW i) p (fsk i))
    let lev ← encryptFFTGLevPoly K M signed e g σ (old i.succ) fsk (mask i.succ) (ct i.succ) q
    pure (Function.update ct i.succ lev)) (Function.update ct 0 lev)

/-- The loop of `DecryptGLevPolyTo` and `DecryptFFTGLevPolyTo`.  tfhe/glwe_enc.go:133-135, tfhe/fft_glwe_enc.go:116-118. -/
def roundFirst (g : GadgetParams w) (p : Poly N (BitVec w)) : Poly N (BitVec w) :=
  fun i => divRoundBits (p i) g.logFirstBaseQ % g.base

/-- `DecryptGLevPolyTo`, and `DecryptGGSWPolyTo` on row 0.  tfhe/glwe_enc.go:131-136, 195-197. -/
noncomputable def decryptGLevPoly (g : GadgetParams w) (old fsk : Fin k → ℕ → ℝ) (ct : ℕ → Fin (k + 1) → Poly N (BitVec w)) :
    Option (Poly N (BitVec w)) :=
  (decryptGLWEPhase K.toFloat64 signed e old fsk (ct 0)).map (roundFirst g)

/-- `DecryptFFTGLevPolyTo`, and `DecryptFFTGGSWPolyTo` on row 0.  tfhe/fft_glwe_enc.go:114-119, 175-177. -/
noncomputable def decryptFFTGLevPoly (g : GadgetParams w) (old fsk : Fin k → ℕ → ℝ) (ct : ℕ → Fin (k + 1) → FPoly) :
    Option (Poly N (BitVec w)) :=
  (decryptFFTGLWEPhase K signed e old fsk (ct 0)).map (roundFirst g)

/-- The loop of `DecryptGLevTo` and `DecryptFFTGLevTo`; elements from `N` on keep their old value.  tfhe/glwe_enc.go:117-120,
tfhe/fft_glwe_enc.go:100-103. -/
def glevMessagesOut (p : BitVec w) (q : Poly N (BitVec w)) (old : List (BitVec 64)) : Option (List (BitVec 64)) :=
  if p = 0 then none else some (old.mapIdx fun i o => if h : i < N then (q ⟨i, h⟩ % p).setWidth 64 else o)
end
end Tfhe.Enc

namespace Tfhe.Mk
open Tfhe Gauss Fft Enc

section
variable (K : Machine) (M : Libm) {w N : ℕ} (signed : Bool) (e : Eval ℝ)

/-- `EncryptFFTGLWEPlaintextTo`; `ct` is `ctOut` before the call.  mktfhe/encryptor.go:230-233. -/
noncomputable def encryptFFTGLWEFl (P idx : ℕ) (σ : ℝ) (old fsk : Fin 1 → ℕ → ℝ) (mask : Fin 1 → Poly N (BitVec w))
    (ct : Fin (P + 1) → FPoly) (pt : Poly N (BitVec w)) : Stream (Fin (P + 1) → FPoly) := do
  let buf ← encryptGLWEFl K.toFloat64 M signed e P idx σ old fsk mask pt
  pure (fwdFFTCt K e ct buf)

/-- `DecryptFFTGLWEPhaseTo`; `FFTGLWECiphertext` has `P + 1` components.  mktfhe/decryptor.go:187-190. -/
noncomputable def decryptFFTGLWEPhaseFl [NeZero N] {P : ℕ} (d : Decryptor (Poly N (BitVec w))) (old oldKey : ℕ → Fin 1 → ℕ → ℝ)
    (ct : Fin (P + 1) → FPoly) : Option (Poly N (BitVec w)) :=
  decryptGLWEPhaseFl K.toFloat64 signed e d old oldKey (ext0 (invFFTCt K e ct))
end
end Tfhe.Mk
