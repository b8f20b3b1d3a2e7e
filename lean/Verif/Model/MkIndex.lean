import Verif.Model.MultiKey
import Verif.Model.Params

/-!
# Model of the checks before public-key encryption, and of the index of a party as a Go `int`

The index is an integer of any size here, so that the wrap-around of `1 + idx` and `idx * n` at the ends of `int` is left out.
`none` is a panic.
-/
namespace Tfhe.Mk

/-- `IsPublicKeyEncryptable`.  tfhe/params.go:624-626. -/
def publicKeyEncryptable {w : ℕ} (p : Params w) : Bool := p.bootstrapOrder == 0

/-- `NewLWEPublicKey`; a key is given by its lengths.  tfhe/lwe.go:50-60. -/
def newLWEPublicKey {w : ℕ} (p : Params w) : Option (List ℕ) :=
  if !publicKeyEncryptable p then none else some (List.replicate p.glweRank.toNat (p.glweRank.toNat + 1))

/-- `NewPublicKey`, with `NewGLWEPublicKey` as the lengths of a key.  tfhe/encryptor_key.go:124-133. -/
def newPublicKey {w : ℕ} (p : Params w) : Option (List ℕ × List ℕ) :=
  if !publicKeyEncryptable p then none
  else (newLWEPublicKey p).map fun k => (k, List.replicate p.glweRank.toNat (p.glweRank.toNat + 1))

/-- `GenPublicKey`, where `make` samples the values of the new key.  tfhe/encryptor.go:157-182, mktfhe/encryptor.go:238-240. -/
def genPublicKey {w : ℕ} {K : Type} (p : Params w) (make : List ℕ × List ℕ → K) : Option K :=
  if !publicKeyEncryptable p then none else (newPublicKey p).map make

/-- `NewPublicEncryptor`; only the check and the key are modelled.  tfhe/encryptor_public.go:58-79. -/
def newPublicEncryptor {w : ℕ} {K : Type} (p : Params w) (pk : K) : Option K :=
  if !publicKeyEncryptable p then none else some pk

/-- `NewPublicEncryptor` of the multi-key package.  mktfhe/encryptor_public.go:41-58. -/
def mkNewPublicEncryptor {w : ℕ} {K : Type} (p : MKParams w) (idx : ℤ) (pk : K) : Option (ℤ × K) :=
  if idx > p.partyCount.toInt then none else (newPublicEncryptor p.subParams pk).map fun k => (idx, k)

/-- `GLWECiphertext.CopyFromSubKey` of the multi-key package, into a ciphertext for `parties` parties: the body, then the mask at
place `1 + idx`, which panics if there is no such place.  mktfhe/glwe.go:53-61, mktfhe/fft_glwe.go:51-59. -/
def glweCopyAt {P : Type} [Zero P] (parties : ℕ) (idx : ℤ) (sub : Fin 2 → P) : Option (Fin (parties + 1) → P) :=
  let ct : Fin (parties + 1) → P := fun t => if (t : ℕ) = 0 then sub 0 else 0
  if 0 ≤ 1 + idx ∧ 1 + idx ≤ parties then some fun t => if ((t : ℕ) : ℤ) = 1 + idx then sub 1 else ct t else none

/-- `LWECiphertext.CopyFromSubKey` of the multi-key package, into a ciphertext of dimension `dim` from one of dimension `n`: the
slice expression panics if its bounds are out of range, and the body is written last.  The capacity of `ct.Value` is taken to be its
length, as for `NewLWECiphertext`.  mktfhe/lwe.go:37-46. -/
def lweCopyAt {R : Type} [Zero R] (dim n : ℕ) (idx : ℤ) (sub : ℕ → R) : Option (ℕ → R) :=
  if n = 0 then none
  else if dim % n ≠ 0 then none
  else if 0 ≤ 1 + idx * n ∧ 1 + (idx + 1) * n ≤ dim + 1 then
    some fun t => if t = 0 then sub 0
      else if 1 + idx * n ≤ t ∧ (t : ℤ) < 1 + (idx + 1) * n then sub (1 + (t - (1 + idx * n))).toNat else 0
  else none

/-- `EncryptGLWEBody` of an `Encryptor` with the index `idx`.  mktfhe/encryptor.go:204-210. -/
def encryptGLWEAt {P : Type} [CommRing P] (parties : ℕ) (idx : ℤ) (sk mask err : Fin 1 → P) (noise body : P) :
    Option (Fin (parties + 1) → P) := glweCopyAt parties idx (encryptGLWEBody sk mask err noise body)

/-- `EncryptGLWEBody` of a `PublicEncryptor` with the index `idx`; `buf` is the old content of `e.buf.ctSubGLWE`.
mktfhe/encryptor_public.go:146-152. -/
def pubEncryptGLWEAt {P : Type} [CommRing P] (parties : ℕ) (idx : ℤ) (pk : Fin 1 → Fin 2 → P) (r : Fin 1 → P)
    (noise : Fin 2 → P) (err : Fin 1 → Fin 2 → P) (buf : Fin 2 → P) (body : P) : Option (Fin (parties + 1) → P) :=
  glweCopyAt parties idx (pubEncryptGLWEBody pk r noise err (Function.update buf 0 body))

end Tfhe.Mk
