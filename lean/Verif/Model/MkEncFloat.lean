import Verif.Model.EncFloat
import Verif.Model.MultiKey

/-!
# Multi-key encryption and decryption with rounded transforms and Gaussian samples from a stream

`EncryptLWEPlaintextTo` and `EncryptGLWEPlaintextTo` of `mktfhe/encryptor.go` and `DecryptGLWEPhaseTo` of `mktfhe/decryptor.go`:
as in `Model/MultiKey.lean`, but with the single-key functions of `Model/EncFloat.lean`.  `DecryptLWEPlaintext` has no floating
point and is that of `Model/MultiKey.lean`.
-/
namespace Tfhe.Mk
open Tfhe Gauss Fft Enc

section
variable (F : Float64) (M : Libm) {w N : ℕ} (signed : Bool) (e : Eval ℝ)

/-- `EncryptLWEPlaintextTo` and `EncryptLWEBody`: the single-key encryption, then the copy into the block of the party.
mktfhe/encryptor.go:163-175. -/
noncomputable def encryptLWEFl {n : ℕ} (P idx : ℕ) (σ : ℝ) (sk mask : Fin n → BitVec w) (pt : BitVec w) :
    Stream (ℕ → BitVec w) := do
  let sub ← Enc.encryptLWE M σ sk mask pt
  Enc.ofPanic (mkLWECopyFromSubKey (P * n) n idx (ext0 sub))

/-- `EncryptGLWEPlaintextTo` and `EncryptGLWEBody`.  mktfhe/encryptor.go:197-210. -/
noncomputable def encryptGLWEFl (P idx : ℕ) (σ : ℝ) (old fsk : Fin 1 → ℕ → ℝ) (mask : Fin 1 → Poly N (BitVec w))
    (pt : Poly N (BitVec w)) : Stream (Fin (P + 1) → Poly N (BitVec w)) := do
  let sub ← Enc.encryptGLWEBody F M signed e σ old fsk mask pt
  Enc.ofPanic (mkGLWECopyFromSubKey P idx sub)

/-- `DecryptGLWEPhaseTo`: the body is replaced by the phase with respect to one party after the other; every sub-decryptor has the
transform of its own key, made in a buffer with contents `oldKey i`.  mktfhe/decryptor.go:158-167. -/
noncomputable def decryptGLWEPhaseFl (d : Decryptor (Poly N (BitVec w))) (old oldKey : ℕ → Fin 1 → ℕ → ℝ)
    (ct : ℕ → Poly N (BitVec w)) : Option (Poly N (BitVec w)) :=
  (List.range d.on.length).foldlM (fun pt i =>
    if d.on.getD i false then
      (d.subs[i]?).join.bind fun s =>
        Enc.decryptGLWEPhase F signed e (old i) (fwdFFTKey F e (oldKey i) (fun _ : Fin 1 => s)) (Fin.cons pt fun _ => ct (1 + i))
    else some pt) (ct 0)
end
end Tfhe.Mk
