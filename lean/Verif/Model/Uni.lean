import Verif.Model.MultiKey

/-!
# Model of uni-encryption of messages

`UniEncryptPolyTo` itself is `Mk.uniEncryptPoly`.  A uni-encryption has gadget parameters of its own and two
gadget ciphertexts with gadget parameters.
-/
namespace Tfhe.Mk

variable {w N : ℕ} [NeZero N]

/-- A `UniEncryption` with its gadget parameters and those of its two gadget ciphertexts.
mktfhe/glwe.go:96-102. -/
structure UniCt (w N : ℕ) where
  g : GadgetParams w
  g0 : GadgetParams w
  g1 : GadgetParams w
  u : UniEnc (Poly N (BitVec w))

/-- The samples and the errors of the products that an encryption makes; `aux` is the auxiliary key, a sample of the
binary sampler. -/
structure UniRand (w N : ℕ) where
  aux : Poly N (BitVec w)
  err0 : ℕ → Poly N (BitVec w)
  noise0 : ℕ → Poly N (BitVec w)
  mask1 : ℕ → Poly N (BitVec w)
  err1 : ℕ → Poly N (BitVec w)
  noise1 : ℕ → Poly N (BitVec w)

/-- `UniEncryptPoly`: a new uni-encryption, filled by `UniEncryptPolyTo`; it panics if the gadget has more levels than
the common reference string.  `z` is the key of the party.  mktfhe/glwe_enc.go:29-33, 36-52, mktfhe/glwe.go:105-113. -/
def uniEncryptCt (crs : List (Poly N (BitVec w))) (z : Poly N (BitVec w)) (g : GadgetParams w) (ω : UniRand w N)
    (p : Poly N (BitVec w)) : Option (UniCt w N) :=
  if g.level ≤ crs.length then
    some ⟨g, g, g, uniEncryptPoly (fun j => Poly.C N (g.baseQ j)) (fun j => crs.getD j 0) z ω.aux ω.err0 ω.noise0
      ω.mask1 ω.err1 ω.noise1 p⟩
  else none

/-- `UniEncrypt` and `UniEncryptTo`: missing messages are zero and surplus ones ignored (`glevMessage`).
mktfhe/glwe_enc.go:11-15, 18-26. -/
def uniEncrypt (m : BitVec w) (crs : List (Poly N (BitVec w))) (z : Poly N (BitVec w)) (g : GadgetParams w)
    (ω : UniRand w N) (messages : List (BitVec 64)) : Option (UniCt w N) :=
  (glevMessage m messages).bind (uniEncryptCt crs z g ω)

/-- `UniDecryptPolyTo`: `derr` and `err` are the errors of the products with the key and with the auxiliary key.
The result is not reduced modulo the base.  mktfhe/glwe_enc.go:79-88. -/
def uniDecryptPoly (z derr err : Poly N (BitVec w)) (ct : UniCt w N) : Poly N (BitVec w) :=
  let aux := decryptGLevPoly ct.g1 (fun _ : Fin 1 => z) (fun _ => derr) ct.u.v1
  let out := ct.u.v0 0 0 - (ct.u.v0 0 1 * aux + err)
  fun i => divRoundBits (out i) ct.g.logFirstBaseQ

/-- `UniDecryptTo`; elements from `N` on keep their old value.  mktfhe/glwe_enc.go:62-69. -/
def uniDecrypt (m : BitVec w) (z derr err : Poly N (BitVec w)) (ct : UniCt w N) (old : List (BitVec 64)) :
    Option (List (BitVec 64)) :=
  if m = 0 then none else some (old.mapIdx fun i o =>
    if h : i < N then ((uniDecryptPoly z derr err ct ⟨i, h⟩ % m).setWidth 64) else o)

/-- A Fourier uni-encryption is kept as the uni-encryption it is the transform of; `InvFFTGLWECiphertextTo` gives its
ciphertexts back up to the errors `δ0` and `δ1`. -/
def uniInvFFT (δ0 δ1 : ℕ → Fin 2 → Poly N (BitVec w)) (ct : UniCt w N) : UniCt w N :=
  { ct with u := ⟨fun j i => ct.u.v0 j i + δ0 j i, fun j i => ct.u.v1 j i + δ1 j i⟩ }

/-- `FFTUniDecryptPolyTo`.  mktfhe/fft_glwe_enc.go:82-92. -/
def fftUniDecryptPoly (z derr err : Poly N (BitVec w)) (δ0 δ1 : ℕ → Fin 2 → Poly N (BitVec w)) (ct : UniCt w N) :
    Poly N (BitVec w) := uniDecryptPoly z derr err (uniInvFFT δ0 δ1 ct)

/-- `FFTUniDecryptTo`.  mktfhe/fft_glwe_enc.go:65-72. -/
def fftUniDecrypt (m : BitVec w) (z derr err : Poly N (BitVec w)) (δ0 δ1 : ℕ → Fin 2 → Poly N (BitVec w))
    (ct : UniCt w N) (old : List (BitVec 64)) : Option (List (BitVec 64)) :=
  uniDecrypt m z derr err (uniInvFFT δ0 δ1 ct) old

/-- `UniEncryption.CopyFrom`: the gadget parameters of the receiver stay.  mktfhe/glwe.go:136-140,
tfhe/glwe.go:261-266. -/
def uniCopyFrom (ct ctIn : UniCt w N) : UniCt w N := { ctIn with g := ct.g }

end Tfhe.Mk
