import Verif.Model.MultiKey
import Verif.Model.Sampler

/-!
# Model of the setup of a multi-key computation

`NewEncryptor` and `NewEncryptorWithKey` of `mktfhe/encryptor.go` and `mktfhe/bootstrap_keygen.go`.  The stream cipher that is
keyed with the hash of a seed is an arbitrary function `prng` from seeds to key streams; the raw words of the binary sampler of a
party are a list (see `Model/Sampler`); the other random values and the errors of the Fourier transforms are the fields of
`KeyRand`.  The two parallel variants store the same values (C29).
-/
namespace Tfhe.Mk
open Rng

/-- The parameters that key generation reads: the number of parties, the size of the ring is `N`, the LWE dimension is
`bs * bc`. -/
structure SetupParams (w : ℕ) where
  P : ℕ
  bs : ℕ
  bc : ℕ
  gbr : GadgetParams w
  gr : GadgetParams w
  gks : GadgetParams w

/-- The loop that samples the common reference string.  mktfhe/encryptor.go:58-62, 91-95. -/
def sampleCRS (ks : ℕ → BitVec 8) (bytes N : ℕ) : ℕ → Uniform → Option (List (List (BitVec (8 * bytes))) × Uniform)
  | 0, s => some ([], s)
  | L + 1, s => (s.sampleVec ks bytes N).bind fun (p, s) => (sampleCRS ks bytes N L s).map fun (l, s) => (p :: l, s)

/-- The fields of an `Encryptor` that key generation uses: `CRS`, `LWELargeKey.Value` of the secret key, and the words that
`BinarySampler` has still to read.  mktfhe/encryptor.go:10-31. -/
structure Enc (w : ℕ) where
  index : ℤ
  crs : List (List (BitVec w))
  key : ℕ → BitVec w
  words : List (BitVec 64)

/-- `NewEncryptor`: the key is sampled after the common reference string.  mktfhe/encryptor.go:52-80. -/
def setupEncryptor (prng : List (BitVec 8) → ℕ → BitVec 8) {bytes : ℕ} (N : ℕ) (sp : SetupParams (8 * bytes)) (idx : ℤ)
    (crsSeed : List (BitVec 8)) (words : List (BitVec 64)) : Outcome 64 (Enc (8 * bytes)) :=
  match newEncryptor sp.P idx with
  | none => .panic
  | some idx =>
    match sampleCRS (prng crsSeed) bytes N sp.gr.level Uniform.new with
    | none => .panic
    | some (crs, _) =>
      match genSecretKey (sp.bs * sp.bc) N sp.bs words with
      | .panic => .panic
      | .reading => .reading
      | .ok key rest => .ok ⟨idx, crs, key, rest⟩ rest

/-- `NewEncryptorWithKey`; `words` is the stream of the new sampler.  mktfhe/encryptor.go:85-111. -/
def setupEncryptorWithKey (prng : List (BitVec 8) → ℕ → BitVec 8) {bytes : ℕ} (N : ℕ) (sp : SetupParams (8 * bytes)) (idx : ℤ)
    (crsSeed : List (BitVec 8)) (key : ℕ → BitVec (8 * bytes)) (words : List (BitVec 64)) : Option (Enc (8 * bytes)) :=
  (newEncryptor sp.P idx).bind fun idx =>
    (sampleCRS (prng crsSeed) bytes N sp.gr.level Uniform.new).map fun c => ⟨idx, c.1, key, words⟩

section
variable {w : ℕ} (N : ℕ) [NeZero N]

/-- The random values of `GenEvalKey` other than the bits of `auxKey`, and the errors of its transforms. -/
structure KeyRand (w N n : ℕ) where
  crsNoise : ℕ → Poly N (BitVec w)
  crsErr : ℕ → Poly N (BitVec w)
  err0 : ℕ → Poly N (BitVec w)
  noise0 : ℕ → Poly N (BitVec w)
  mask1 : ℕ → Poly N (BitVec w)
  err1 : ℕ → Poly N (BitVec w)
  noise1 : ℕ → Poly N (BitVec w)
  brMask : ℕ → Fin 2 → ℕ → Fin 1 → Poly N (BitVec w)
  brErr : ℕ → Fin 2 → ℕ → Fin 1 → Poly N (BitVec w)
  brNoise : ℕ → Fin 2 → ℕ → Poly N (BitVec w)
  ksMask : ℕ → ℕ → Fin n → BitVec w
  ksNoise : ℕ → ℕ → BitVec w

/-- `EvaluationKey`: the single-key part, and the parts that the products use.  mktfhe/bootstrap_key.go:6-13. -/
structure PartyKey (w N n : ℕ) where
  brk : ℕ → Fin 2 → ℕ → Fin 2 → Poly N (BitVec w)
  ksk : ℕ → ℕ → Fin (n + 1) → BitVec w
  prod : EvalKey (Poly N (BitVec w))

/-- `GLWEKey.Value[0]` shares its coefficients with the first `N` elements of `LWELargeKey`.  tfhe/encryptor_key.go:34-37. -/
def glweKey0 (key : ℕ → BitVec w) : Poly N (BitVec w) := fun j => key j

/-- Element `i` of `CRS` as a polynomial. -/
def crsPoly (crs : List (List (BitVec w))) : ℕ → Poly N (BitVec w) := fun i j => (crs.getD i []).getD j 0

/-- `GenEvalKey`.  `GenCRSPublicKey` and `GenRelinKey` read as many elements of `CRS` as the gadget has levels (`panic` is the
index panic), and `GenRelinKey` samples `auxKey`.
mktfhe/bootstrap_keygen.go:11-17, 44-60, tfhe/bootstrap_keygen.go:15-20, 34-54, 111-126. -/
def genEvalKey (sp : SetupParams w) (e : Enc w) (r : KeyRand w N (sp.bs * sp.bc)) :
    Outcome 64 (PartyKey w N (sp.bs * sp.bc)) :=
  if e.crs.length < sp.gr.level then .panic
  else match sampleVec 0 N (fun _ => (0 : BitVec w)) e.words with
    | none => .reading
    | some (aux, rest) =>
      let z := glweKey0 N e.key
      .ok {
        brk := fun j => genBlindRotateKeyElem sp.gbr (fun _ : Fin 1 => z) (r.brMask j) (r.brErr j) (r.brNoise j) (e.key j)
        ksk := fun j => encryptLevScalar sp.gks (fun t => e.key t) (r.ksMask j) (r.ksNoise j) (e.key (sp.bs * sp.bc + j))
        prod := {
          crs := genCRSPublicKey (crsPoly N e.crs) z r.crsNoise r.crsErr
          relin := uniEncryptPoly (fun j => Poly.C N (sp.gr.baseQ j)) (crsPoly N e.crs) z (glweKey0 N aux) r.err0 r.noise0
            r.mask1 r.err1 r.noise1 z } } rest

/-- The keys as an evaluator holds them that was given those of the parties `given`.  mktfhe/evaluator.go:83-91. -/
def evalKeys {n : ℕ} (given : ℕ → Bool) (pk : ℕ → PartyKey w N n) : ℕ → Option (EvalKey (Poly N (BitVec w))) :=
  fun i => if given i then some (pk i).prod else none
end
end Tfhe.Mk
