import Verif.Model.Glwe

/-!
# Model of public-key encryption

`GenPublicKey` of tfhe/encryptor.go, tfhe/lwe_enc_public.go, tfhe/glwe_enc_public.go,
tfhe/fft_glwe_enc_public.go and mktfhe/encryptor_public.go.

The previous contents of the output ciphertext and of the buffers of the encryptor are arguments: the
code adds into them.  Samples are arguments; `err` is the error of the FFT products.  The Fourier
transform of the result is not a separate value in the model: `FwdFFTGLWECiphertextTo` is modelled by
the ciphertext that it transforms.
-/
namespace Tfhe

/-- `vec.ReverseTo` and `vec.ReverseInPlace` on the coefficients of a polynomial; the loops are
modelled on slices in `Model/Vec.lean` and proved to be `List.reverse` in `Props/C44.lean`.
math/vec/vec.go:118-124, 127-131. -/
def revPoly {N : Nat} {R : Type} (p : Poly N R) : Poly N R := fun i => p i.rev

/-- The GLWE part of `GenPublicKey`: component `i` is an encryption of zero, made with mask `mask i`,
FFT errors `err i` and noise `noise i`.  tfhe/encryptor.go:162-166. -/
def genGLWEPublicKey {P : Type} [Zero P] [Add P] [Sub P] [Mul P] {k : Nat} (sk : Fin k → P)
    (mask err : Fin k → Fin k → P) (noise : Fin k → P) : Fin k → Fin (k + 1) → P :=
  fun i => encryptGLWEBody sk (mask i) (err i) (noise i) 0

/-- The LWE part of `GenPublicKey`: `LWEKey[i].Value[0]` starts as noise, and the products of the masks
with the reversed key are subtracted.  tfhe/encryptor.go:168-181. -/
def genLWEPublicKey {N : Nat} {R : Type} [Add (Poly N R)] [Sub (Poly N R)] [Mul (Poly N R)] {k : Nat}
    (sk : Fin k → Poly N R) (mask err : Fin k → Fin k → Poly N R) (noise : Fin k → Poly N R) :
    Fin k → Fin (k + 1) → Poly N R :=
  fun i => Fin.cons (Fin.foldl k (fun b j => b - (mask i j * revPoly (sk j) + err i j)) (noise i)) (mask i)

/-- The polynomial `poly.Poly{Coeffs: ct.Value[off : off+N]}`. tfhe/lwe_enc_public.go:45-48. -/
def readPoly {R : Type} (N off : Nat) (ct : Nat → R) : Poly N R := fun i => ct (off + i)

/-- Writing to that polynomial writes to the ciphertext. tfhe/lwe_enc_public.go:45-48. -/
def writePoly {R : Type} {N : Nat} (off : Nat) (p : Poly N R) (ct : Nat → R) : Nat → R :=
  fun t => if h : off ≤ t ∧ t < off + N then p ⟨t - off, by omega⟩ else ct t

/-- `PublicEncryptor.EncryptLWEBody`: `ct` is the old contents of the whole ciphertext (body in
position 0), `r` the binary polynomials, `noise0` and `noise` the Gaussian samples, `err i j` the FFT
error of the product for `i`, `j`.  tfhe/lwe_enc_public.go:33-59. -/
def pubEncryptLWEBody {N : Nat} {R : Type} [Zero R] [Mul R] [Add R] [Add (Poly N R)] [Mul (Poly N R)] {k : Nat}
    (pk : Fin k → Fin (k + 1) → Poly N R) (r : Fin k → Poly N R) (noise0 : R) (noise : Fin k → Poly N R)
    (err : Fin k → Fin k → Poly N R) (ct : Nat → R) : Nat → R :=
  let ct := Fin.foldl k (fun ct i => upd ct 0 (ct 0 + dot (r i) (pk i 0))) ct
  let ct := upd ct 0 (ct 0 + noise0)
  let ct := Fin.foldl k (fun ct i => Fin.foldl k (fun ct j =>
    writePoly (1 + j * N) (readPoly N (1 + j * N) ct + (pk i j.succ * revPoly (r i) + err i j)) ct) ct) ct
  Fin.foldl k (fun ct j => writePoly (1 + j * N) (readPoly N (1 + j * N) ct + noise j) ct) ct

/-- `PublicEncryptor.EncryptLWEPlaintextTo`. tfhe/lwe_enc_public.go:26-29. -/
def pubEncryptLWEPlaintextTo {N : Nat} {R : Type} [Zero R] [Mul R] [Add R] [Add (Poly N R)] [Mul (Poly N R)]
    {k : Nat} (pk : Fin k → Fin (k + 1) → Poly N R) (r : Fin k → Poly N R) (noise0 : R)
    (noise : Fin k → Poly N R) (err : Fin k → Fin k → Poly N R) (ct : Nat → R) (pt : R) : Nat → R :=
  pubEncryptLWEBody pk r noise0 noise err (upd ct 0 pt)

/-- `PublicEncryptor.EncryptGLWEBody` for rank `k + 1` (for rank 0 the source would panic, and `Compile`
rejects it): the key component 0 first, then the others, then the noise; everything is added to the old
contents `ct`.  tfhe/glwe_enc_public.go:31-50. -/
def pubEncryptGLWEBody {P : Type} [Add P] [Mul P] {k : Nat} (pk : Fin (k + 1) → Fin (k + 2) → P)
    (r : Fin (k + 1) → P) (noise : Fin (k + 2) → P) (err : Fin (k + 1) → Fin (k + 2) → P)
    (ct : Fin (k + 2) → P) : Fin (k + 2) → P :=
  let row (i : Fin (k + 1)) (ct : Fin (k + 2) → P) (j : Fin (k + 2)) : Fin (k + 2) → P :=
    Function.update ct j (ct j + (pk i j * r i + err i j))
  let ct := row 0 ct 0
  let ct := Fin.foldl (k + 1) (fun ct j => row 0 ct j.succ) ct
  let ct := Fin.foldl k (fun ct i => Fin.foldl (k + 2) (row i.succ) ct) ct
  Fin.foldl (k + 2) (fun ct j => Function.update ct j (ct j + noise j)) ct

/-- `PublicEncryptor.EncryptGLWEPlaintextTo`. tfhe/glwe_enc_public.go:24-27. -/
def pubEncryptGLWEPlaintextTo {P : Type} [Add P] [Mul P] {k : Nat} (pk : Fin (k + 1) → Fin (k + 2) → P)
    (r : Fin (k + 1) → P) (noise : Fin (k + 2) → P) (err : Fin (k + 1) → Fin (k + 2) → P)
    (ct : Fin (k + 2) → P) (pt : P) : Fin (k + 2) → P :=
  pubEncryptGLWEBody pk r noise err (Function.update ct 0 pt)

/-- `PublicEncryptor.EncryptFFTGLWEPlaintextTo`: encrypts into the buffer `e.buf.ctGLWE`; result and new
contents of the buffer.  tfhe/fft_glwe_enc_public.go:21-24. -/
def pubEncryptFFTGLWEPlaintextTo {P : Type} [Add P] [Mul P] {k : Nat} (pk : Fin (k + 1) → Fin (k + 2) → P)
    (r : Fin (k + 1) → P) (noise : Fin (k + 2) → P) (err : Fin (k + 1) → Fin (k + 2) → P)
    (buf : Fin (k + 2) → P) (pt : P) : (Fin (k + 2) → P) × (Fin (k + 2) → P) :=
  let buf := pubEncryptGLWEPlaintextTo pk r noise err buf pt
  (buf, buf)

/-- `LWECiphertext.CopyFromSubKey` of the multi-key package, for a single-key ciphertext of dimension
`n` and party `idx`; `none` is the panic for dimensions or an index that do not fit.  `dim` is the
dimension of the output.  mktfhe/lwe.go:37-46. -/
def mkLWECopyFromSubKey {R : Type} [Zero R] (dim n idx : Nat) (sub : Nat → R) : Option (Nat → R) :=
  if n = 0 then none
  else if dim % n ≠ 0 then none
  else if dim < (idx + 1) * n then none
  else some fun t =>
    if t = 0 then sub 0
    else if 1 + idx * n ≤ t ∧ t < 1 + (idx + 1) * n then sub (t - idx * n) else 0

/-- `PublicEncryptor.EncryptLWEBody` of the multi-key package, with rank-1 single-key ciphertexts of
dimension `N`: encrypts into the buffer `e.buf.ctSubLWE`, whose mask is not cleared.  Result and new
buffer.  mktfhe/encryptor_public.go:111-117. -/
def mkPubEncryptLWEBody {N : Nat} {R : Type} [Zero R] [Mul R] [Add R] [Add (Poly N R)] [Mul (Poly N R)]
    (parties idx : Nat) (pk : Fin 1 → Fin 2 → Poly N R) (r : Fin 1 → Poly N R) (noise0 : R)
    (noise : Fin 1 → Poly N R) (err : Fin 1 → Fin 1 → Poly N R) (buf : Nat → R) (body : R) :
    Option ((Nat → R) × (Nat → R)) :=
  let buf := pubEncryptLWEBody pk r noise0 noise err (upd buf 0 body)
  (mkLWECopyFromSubKey (parties * N) N idx buf).map fun ct => (ct, buf)

/-- `GLWECiphertext.CopyFromSubKey` of the multi-key package; `none` is the panic for an index out of
range.  mktfhe/glwe.go:53-61. -/
def mkGLWECopyFromSubKey {P : Type} [Zero P] (parties idx : Nat) (sub : Fin 2 → P) :
    Option (Fin (parties + 1) → P) :=
  if idx < parties then some fun t => if (t : Nat) = 0 then sub 0 else if (t : Nat) = 1 + idx then sub 1 else 0 else none

/-- `PublicEncryptor.EncryptGLWEBody` of the multi-key package: encrypts into the buffer
`e.buf.ctSubGLWE`, whose mask is not cleared.  mktfhe/encryptor_public.go:146-152. -/
def mkPubEncryptGLWEBody {P : Type} [Zero P] [Add P] [Mul P] (parties idx : Nat) (pk : Fin 1 → Fin 2 → P)
    (r : Fin 1 → P) (noise : Fin 2 → P) (err : Fin 1 → Fin 2 → P) (buf : Fin 2 → P) (body : P) :
    Option ((Fin (parties + 1) → P) × (Fin 2 → P)) :=
  let buf := pubEncryptGLWEBody pk r noise err (Function.update buf 0 body)
  (mkGLWECopyFromSubKey parties idx buf).map fun ct => (ct, buf)

end Tfhe
