import Verif.Model.Binary
import Verif.Model.MkOps
import Verif.Model.Public

/-!
# Model of `tfhe/binary_encryptor_public.go` and `mktfhe/binary_encryptor_public.go`

`EncryptLWEBool` encrypts into a new ciphertext, `EncryptLWEBoolTo` into an old one.  The multi-key encryptor encrypts
into a buffer of its own, which is threaded through the calls.
-/
namespace Tfhe

/-- The samples and FFT errors of one call of `EncryptLWEBody`: binary polynomials, Gaussian samples, errors.
tfhe/lwe_enc_public.go:33-59. -/
structure PubRand (w N k : ℕ) where
  r : Fin k → Poly N (BitVec w)
  noise0 : BitVec w
  noise : Fin k → Poly N (BitVec w)
  err : Fin k → Fin k → Poly N (BitVec w)

variable {w N : ℕ} [NeZero N]

/-- `PublicEncryptor.EncryptLWEPlaintext`: a new ciphertext is zero.  tfhe/lwe_enc_public.go:19-23. -/
def pubEncryptLWEPlaintext {k : ℕ} (pk : Fin k → Fin (k + 1) → Poly N (BitVec w)) (x : PubRand w N k) (pt : BitVec w) :
    ℕ → BitVec w :=
  pubEncryptLWEPlaintextTo pk x.r x.noise0 x.noise x.err (fun _ => 0) pt

/-- `BinaryPublicEncryptor.EncryptLWEBool`.  tfhe/binary_encryptor_public.go:41-43. -/
def pubEncryptLWEBool {k : ℕ} (pk : Fin k → Fin (k + 1) → Poly N (BitVec w)) (x : PubRand w N k) (message : Bool) :
    ℕ → BitVec w :=
  pubEncryptLWEPlaintext pk x (encodeLWEBool w message)

/-- `BinaryPublicEncryptor.EncryptLWEBoolTo`; `ct` is the old contents of the output.
tfhe/binary_encryptor_public.go:48-50. -/
def pubEncryptLWEBoolTo {k : ℕ} (pk : Fin k → Fin (k + 1) → Poly N (BitVec w)) (x : PubRand w N k) (ct : ℕ → BitVec w)
    (message : Bool) : ℕ → BitVec w :=
  pubEncryptLWEPlaintextTo pk x.r x.noise0 x.noise x.err ct (encodeLWEBool w message)

/-- `BinaryPublicEncryptor.EncryptLWEBitsTo` and `EncryptLWEBits`, `bits` iterations from index `i`, with samples `x i`.
The elements of the output slice are replaced by new ciphertexts.  tfhe/binary_encryptor_public.go:54-58, 63-68. -/
def pubEncryptLWEBits {k : ℕ} (pk : Fin k → Fin (k + 1) → Poly N (BitVec w)) (x : ℕ → PubRand w N k) :
    ℕ → ℕ → BitVec 64 → List (ℕ → BitVec w)
  | 0, _, _ => []
  | bits + 1, i, message =>
    pubEncryptLWEBool pk (x i) (message &&& 1 == 1) :: pubEncryptLWEBits pk x bits (i + 1) (message.sshiftRight 1)

namespace Mk

/-- `BinaryPublicEncryptor.EncryptLWEBool` and `EncryptLWEBoolTo` of the multi-key package, for party `idx` of `P`;
`buf` is the contents of `e.buf.ctSubLWE`.  Result and new buffer; `none` is the panic for an index out of range.  The
old contents of an output are overwritten (`Clear` and `CopyFromSubKey`).
mktfhe/binary_encryptor_public.go:37-39, 45-47, mktfhe/encryptor_public.go:98-102, 105-108, 111-117. -/
def pubEncryptLWEBool (P idx : ℕ) (pk : Fin 1 → Fin 2 → Poly N (BitVec w)) (x : PubRand w N 1) (buf : ℕ → BitVec w)
    (message : Bool) : Option ((ℕ → BitVec w) × (ℕ → BitVec w)) :=
  mkPubEncryptLWEBody P idx pk x.r x.noise0 x.noise x.err buf (encodeLWEBool w message)

/-- `BinaryPublicEncryptor.EncryptLWEBitsTo` and `EncryptLWEBits` of the multi-key package.  Result and new buffer.
mktfhe/binary_encryptor_public.go:51-55, 60-65. -/
def pubEncryptLWEBits (P idx : ℕ) (pk : Fin 1 → Fin 2 → Poly N (BitVec w)) (x : ℕ → PubRand w N 1) :
    ℕ → ℕ → (ℕ → BitVec w) → BitVec 64 → Option (List (ℕ → BitVec w) × (ℕ → BitVec w))
  | 0, _, buf, _ => some ([], buf)
  | bits + 1, i, buf, message =>
    (pubEncryptLWEBool P idx pk (x i) buf (message &&& 1 == 1)).bind fun c =>
      (pubEncryptLWEBits P idx pk x bits (i + 1) c.2 (message.sshiftRight 1)).map fun r => (c.1 :: r.1, r.2)

end Mk
end Tfhe
