import Verif.Model.Interleave

/-!
# Model of the multi-key decryptor with its buffers

`mktfhe/decryptor.go`, as programs on the memory of `Verif.Model.Scratch`.  The buffers of a decryptor are
slices like those of the caller, since `SafeCopy` gives them to the copy.  The buffers of the
`SubDecryptors` are copied correctly; they stay inside the operation `prod`, which stands for the
multiplication by the key of a party and may be any function.
-/
namespace Tfhe.Scratch

variable {w : ℕ} {F : Type}

/-- The parts of a decryptor that decryption uses: the rank `N`, `PartyBitMap`, the product with the
secret key of a party, and the two polynomials of `ctSubGLWE` (`GLWERank` is 1).
mktfhe/decryptor.go:17-51, mktfhe/params.go:123. -/
structure Decr (w : ℕ) where
  N : ℕ
  parties : List Bool
  prod : ℕ → List (BitVec w) → ℕ → BitVec w
  sub0 : UVec
  sub1 : UVec

/-- `SafeCopy`: the buffers are those of the original.  mktfhe/decryptor.go:99-119. -/
def Decr.safeCopy (d : Decr w) : Decr w := { d with sub0 := d.sub0, sub1 := d.sub1 }

/-- `ShortFFTPolyMulAddPolyTo` with the key of party `i`; the rank is checked.
math/poly/poly_mul.go:278-320. -/
def shortMulAdd (d : Decr w) (i : ℕ) (out p : Vec) : M w F Unit := do
  check (out.len == d.N && p.len == d.N)
  let xs ← rdAll p
  forUp 0 d.N fun j => do
    let o ← rd out j
    wr out j (o + d.prod i xs j)

/-- `DecryptGLWEPhaseTo` of a `SubDecryptor` for `ctSubGLWE`, with its body as output.
tfhe/glwe_enc.go:66-71. -/
def subDecryptPhaseTo (d : Decr w) (i : ℕ) : M w F Unit := do
  copyTo d.sub0.vec d.sub0.vec
  shortMulAdd d i d.sub0.vec d.sub1.vec

/-- The loop over `PartyBitMap`, from party `i` on.  mktfhe/decryptor.go:160-165. -/
def decryptLoop (d : Decr w) (ct : ℕ → UVec) : ℕ → List Bool → M w F Unit
  | _, [] => pure ()
  | i, false :: bs => decryptLoop d ct (i + 1) bs
  | i, true :: bs => do
    copyTo d.sub1.vec (ct (1 + i)).vec
    subDecryptPhaseTo d i
    decryptLoop d ct (i + 1) bs

/-- `DecryptGLWEPhaseTo`.  mktfhe/decryptor.go:158-167. -/
def decryptPhaseTo (d : Decr w) (out : UVec) (ct : ℕ → UVec) : M w F Unit := do
  copyTo d.sub0.vec (ct 0).vec
  decryptLoop d ct 0 d.parties
  copyTo out.vec d.sub0.vec

end Tfhe.Scratch
