import Verif.Model.Published
import Verif.Model.FftFloat
import Verif.Model.Public
import Verif.Model.Sampler
import Verif.Model.Poly

/-!
# Encryption and decryption with rounded transforms and Gaussian samples from a stream

`tfhe/lwe_enc.go`, `tfhe/glwe_enc.go`, `GenPublicKey` of `tfhe/encryptor.go`, `tfhe/lwe_enc_public.go` and
`tfhe/glwe_enc_public.go`: the same functions as in `Model/Lwe.lean`, `Model/Glwe.lean` and `Model/Public.lean`, but the products are
those of `Model/FftFloat.lean`, in `float64`, and the noise is read by the Gaussian sampler from a list of words.  What the
uniform and the binary samplers deliver is an argument.  `old` is the contents of the buffers that the products find.
-/
namespace Tfhe.Enc
open Tfhe Rng Gauss Fft

/-- A computation that reads words of the Gaussian sampler. -/
def Stream (α : Type) := List (BitVec 32) → Outcome 32 α

instance : Monad Stream where
  pure a := fun ws => .ok a ws
  bind m f := fun ws => match m ws with
    | .panic => .panic
    | .reading => .reading
    | .ok a rest => f a rest

/-- A computation that reads nothing; `none` is a panic. -/
def ofPanic {α : Type} (o : Option α) : Stream α := fun ws => match o with
  | none => .panic
  | some a => .ok a ws

/-- The coefficients of a polynomial as the array that the transforms read. -/
def arr {N w : ℕ} (p : Poly N (BitVec w)) : ℕ → BitVec w := fun i => if h : i < N then p ⟨i, h⟩ else 0

/-- The polynomial with given coefficients; nothing else is done with the elements than to read them. -/
def ofCoeffs {w : ℕ} (N : ℕ) (l : List (BitVec w)) : Poly N (BitVec w) := fun i => l.getD i 0

section
variable (F : Float64) (M : Libm) {w N k : ℕ} (signed : Bool) (e : Eval ℝ)

/-- `FwdFFTGLWESecretKeyTo`.  tfhe/fft_glwe_conv.go:39-43. -/
noncomputable def fwdFFTKey (old : Fin k → ℕ → ℝ) (sk : Fin k → Poly N (BitVec w)) : Fin k → ℕ → ℝ :=
  fun i => fwdFFTFl F.arith e (old i) (arr (sk i))

/-- `pOut -= p * sk`.  math/poly/poly_mul.go:325-367. -/
noncomputable def mulSub (old : ℕ → ℝ) (out p : Poly N (BitVec w)) (fsk : ℕ → ℝ) : Option (Poly N (BitVec w)) :=
  (shortMulSubToFl F.arith signed e old (Poly.toList out) (arr p) fsk).map (ofCoeffs N)

/-- `pOut += p * sk`.  math/poly/poly_mul.go:278-320. -/
noncomputable def mulAdd (old : ℕ → ℝ) (out p : Poly N (BitVec w)) (fsk : ℕ → ℝ) : Option (Poly N (BitVec w)) :=
  (shortMulAddToFl F.arith signed e old (Poly.toList out) (arr p) fsk).map (ofCoeffs N)

/-- `SamplePolyAddTo`.  math/csprng/gaussian_sampler.go:120-128. -/
noncomputable def addNoise (σ : ℝ) (p : Poly N (BitVec w)) : Stream (Poly N (BitVec w)) := do
  let l ← (samplePolyAddTo M σ (Poly.toList p) : Stream (List (BitVec w)))
  pure (ofCoeffs N l)

/-- `SamplePolyTo`.  math/csprng/gaussian_sampler.go:112-114. -/
noncomputable def setNoise (σ : ℝ) (p : Poly N (BitVec w)) : Stream (Poly N (BitVec w)) := do
  let l ← (sampleVecTo M σ (Poly.toList p) : Stream (List (BitVec w)))
  pure (ofCoeffs N l)

/-- `EncryptLWEPlaintextTo`, `σ` is `DefaultLWEStdDevQ`.  tfhe/lwe_enc.go:26-29, 33-37. -/
noncomputable def encryptLWE {n : ℕ} (σ : ℝ) (sk mask : Fin n → BitVec w) (pt : BitVec w) : Stream (Fin (n + 1) → BitVec w) := do
  let noise ← (sample M w σ : Stream (BitVec w))
  pure (encryptLWEPlaintext sk mask noise pt)

/-- `EncryptGLWEBody`, `σ` is `GLWEStdDevQ`.  tfhe/glwe_enc.go:37-44. -/
noncomputable def encryptGLWEBody (σ : ℝ) (old : Fin k → ℕ → ℝ) (fsk : Fin k → ℕ → ℝ) (mask : Fin k → Poly N (BitVec w))
    (body : Poly N (BitVec w)) : Stream (Fin (k + 1) → Poly N (BitVec w)) := do
  let body ← ofPanic ((List.finRange k).foldlM (fun b i => mulSub F signed e (old i) b (mask i) (fsk i)) body)
  let body ← addNoise M σ body
  pure (Fin.cons body mask)

/-- `DecryptGLWEPhaseTo`.  tfhe/glwe_enc.go:66-71. -/
noncomputable def decryptGLWEPhase (old : Fin k → ℕ → ℝ) (fsk : Fin k → ℕ → ℝ) (ct : Fin (k + 1) → Poly N (BitVec w)) :
    Option (Poly N (BitVec w)) :=
  (List.finRange k).foldlM (fun b i => mulAdd F signed e (old i) b (ct i.succ) (fsk i)) (ct 0)

/-- The GLWE part of `GenPublicKey`; the ciphertexts are new, so their bodies are zero.  tfhe/encryptor.go:162-166. -/
noncomputable def genGLWEPublicKey (σ : ℝ) (old : Fin k → Fin k → ℕ → ℝ) (fsk : Fin k → ℕ → ℝ)
    (mask : Fin k → Fin k → Poly N (BitVec w)) : Stream (Fin k → Fin (k + 1) → Poly N (BitVec w)) :=
  (List.finRange k).foldlM (fun pk i => do
    let ct ← encryptGLWEBody F M signed e σ (old i) fsk (mask i) (pk i 0)
    pure (Function.update pk i ct)) 0

/-- The LWE part of `GenPublicKey`; `fskRev` is the transform of the reversed key.  tfhe/encryptor.go:175-181. -/
noncomputable def genLWEPublicKey (σ : ℝ) (old : Fin k → Fin k → ℕ → ℝ) (fskRev : Fin k → ℕ → ℝ)
    (mask : Fin k → Fin k → Poly N (BitVec w)) : Stream (Fin k → Fin (k + 1) → Poly N (BitVec w)) :=
  (List.finRange k).foldlM (fun pk i => do
    let body ← setNoise M σ (pk i 0)
    let body ← ofPanic ((List.finRange k).foldlM (fun b j => mulSub F signed e (old i j) b (mask i j) (fskRev j)) body)
    pure (Function.update pk i (Fin.cons body (mask i)))) 0

/-- `PublicEncryptor.EncryptLWEPlaintextTo`; `r` is what the binary sampler wrote to `auxKey`, `oldKey` and `old` are buffers.
tfhe/lwe_enc_public.go:26-29, 33-59. -/
noncomputable def pubEncryptLWE (σ : ℝ) (oldKey : Fin k → ℕ → ℝ) (old : Fin k → Fin k → ℕ → ℝ)
    (pk : Fin k → Fin (k + 1) → Poly N (BitVec w)) (r : Fin k → Poly N (BitVec w)) (ct : ℕ → BitVec w) (pt : BitVec w) :
    Stream (ℕ → BitVec w) := do
  let ct := upd ct 0 pt
  let ct := Fin.foldl k (fun ct i => upd ct 0 (ct 0 + dot (r i) (pk i 0))) ct
  let noise0 ← (sample M w σ : Stream (BitVec w))
  let ct := upd ct 0 (ct 0 + noise0)
  let fr := fwdFFTKey F e oldKey (fun i => revPoly (r i))
  let ct ← ofPanic ((List.finRange k).foldlM (fun ct (i : Fin k) => (List.finRange k).foldlM (fun ct (j : Fin k) =>
    (mulAdd F signed e (old i j) (readPoly N (1 + j * N) ct) (pk i j.succ) (fr i)).map (writePoly (1 + j * N) · ct)) ct) ct)
  (List.finRange k).foldlM (fun ct (j : Fin k) => do
    let p ← addNoise M σ (readPoly N (1 + j * N) ct)
    pure (writePoly (1 + j * N) p ct)) ct

/-- `PublicEncryptor.EncryptGLWEPlaintextTo`, for rank `k + 1`.  tfhe/glwe_enc_public.go:24-27, 31-50. -/
noncomputable def pubEncryptGLWE (σ : ℝ) (oldKey : Fin (k + 1) → ℕ → ℝ) (old : Fin (k + 1) → Fin (k + 2) → ℕ → ℝ)
    (pk : Fin (k + 1) → Fin (k + 2) → Poly N (BitVec w)) (r : Fin (k + 1) → Poly N (BitVec w))
    (ct : Fin (k + 2) → Poly N (BitVec w)) (pt : Poly N (BitVec w)) : Stream (Fin (k + 2) → Poly N (BitVec w)) := do
  let ct := Function.update ct 0 pt
  let fr := fwdFFTKey F e oldKey r
  let row (i : Fin (k + 1)) (ct : Fin (k + 2) → Poly N (BitVec w)) (j : Fin (k + 2)) :
      Option (Fin (k + 2) → Poly N (BitVec w)) :=
    (mulAdd F signed e (old i j) (ct j) (pk i j) (fr i)).map (Function.update ct j)
  let ct ← ofPanic (row 0 ct 0)
  let ct ← ofPanic ((List.finRange (k + 1)).foldlM (fun ct j => row 0 ct j.succ) ct)
  let ct ← ofPanic ((List.finRange k).foldlM (fun ct i => (List.finRange (k + 2)).foldlM (row i.succ) ct) ct)
  (List.finRange (k + 2)).foldlM (fun ct j => do
    let p ← addNoise M σ (ct j)
    pure (Function.update ct j p)) ct

end
end Tfhe.Enc
