import Verif.Model.MultiKey

/-!
# Model of `mktfhe/lwe_ops.go`, `mktfhe/glwe_ops.go` and of the binary encryptors of `mktfhe`

A multi-key LWE ciphertext of `P` parties is a vector with `P * n + 1` elements, where `n` is the dimension
of one party (`DefaultLWEDimension`, mktfhe/params.go:161-163); a multi-key GLWE ciphertext is a vector of
`P + 1` polynomials (`GLWERank`, mktfhe/params.go:172-174).  They live in the same store as single-key
ciphertexts, so that the output of an operation can be one of its inputs.  The functions that allocate their
result call the ones below with a fresh output.
-/
namespace Tfhe.Mk
variable {R : Type}

/-! ### LWE ciphertexts -/

/-- `AddLWETo`.  mktfhe/lwe_ops.go:16-18. -/
def addLWETo [Add R] (P n out ct0 ct1 : ℕ) (m : Mem R) : Mem R := vecAddTo (P * n + 1) out ct0 ct1 m
/-- `AddPlainLWETo`.  mktfhe/lwe_ops.go:28-31. -/
def addPlainLWETo [Add R] (P n out ct : ℕ) (pt : R) (m : Mem R) : Mem R :=
  let m := vecCopy (P * n + 1) out ct m
  m.write out 0 (m out 0 + pt)
/-- `SubLWETo`.  mktfhe/lwe_ops.go:41-43. -/
def subLWETo [Sub R] (P n out ct0 ct1 : ℕ) (m : Mem R) : Mem R := vecSubTo (P * n + 1) out ct0 ct1 m
/-- `SubPlainLWETo`.  mktfhe/lwe_ops.go:53-56. -/
def subPlainLWETo [Sub R] (P n out ct : ℕ) (pt : R) (m : Mem R) : Mem R :=
  let m := vecCopy (P * n + 1) out ct m
  m.write out 0 (m out 0 - pt)
/-- `NegLWETo`.  mktfhe/lwe_ops.go:66-68. -/
def negLWETo [Neg R] (P n out ct : ℕ) (m : Mem R) : Mem R := vecNegTo (P * n + 1) out ct m
/-- `ScalarMulLWETo`.  mktfhe/lwe_ops.go:78-80. -/
def scalarMulLWETo [Mul R] (P n out ct : ℕ) (c : R) (m : Mem R) : Mem R := vecScalarMulTo (P * n + 1) out ct c m
/-- `ScalarMulAddLWETo`.  mktfhe/lwe_ops.go:83-85. -/
def scalarMulAddLWETo [Add R] [Mul R] (P n out ct : ℕ) (c : R) (m : Mem R) : Mem R :=
  vecScalarMulAddTo (P * n + 1) out ct c m
/-- `ScalarMulSubLWETo`.  mktfhe/lwe_ops.go:88-90. -/
def scalarMulSubLWETo [Sub R] [Mul R] (P n out ct : ℕ) (c : R) (m : Mem R) : Mem R :=
  vecScalarMulSubTo (P * n + 1) out ct c m

/-! ### GLWE ciphertexts

`R` is the ring of polynomials.  As in `Model/Glwe.lean` the error of an FFT product is an argument, and the
operations that must not be called with overlapping arguments are `none` for them. -/

/-- `AddGLWETo`.  mktfhe/glwe_ops.go:16-20. -/
def addGLWETo [Add R] (P out ct0 ct1 : ℕ) (m : Mem R) : Mem R :=
  mapLoopI (fun _ _ a b => a + b) out ct0 ct1 (List.range (P + 1)) m
/-- `AddPlainGLWETo`.  mktfhe/glwe_ops.go:30-35. -/
def addPlainGLWETo [Add R] (P out ct : ℕ) (pt : R) (m : Mem R) : Mem R :=
  let m := mapLoopI (fun _ _ a _ => a) out ct ct (List.range' 1 P) m
  m.write out 0 (m ct 0 + pt)
/-- `SubGLWETo`.  mktfhe/glwe_ops.go:45-49. -/
def subGLWETo [Sub R] (P out ct0 ct1 : ℕ) (m : Mem R) : Mem R :=
  mapLoopI (fun _ _ a b => a - b) out ct0 ct1 (List.range (P + 1)) m
/-- `SubPlainGLWETo`.  mktfhe/glwe_ops.go:59-64. -/
def subPlainGLWETo [Sub R] (P out ct : ℕ) (pt : R) (m : Mem R) : Mem R :=
  let m := mapLoopI (fun _ _ a _ => a) out ct ct (List.range' 1 P) m
  m.write out 0 (m ct 0 - pt)
/-- `NegGLWETo`.  mktfhe/glwe_ops.go:74-78. -/
def negGLWETo [Neg R] (P out ct : ℕ) (m : Mem R) : Mem R :=
  mapLoopI (fun _ _ a _ => -a) out ct ct (List.range (P + 1)) m
/-- `ScalarMulGLWETo`, `PolyMulGLWETo` and `FFTPolyMulGLWETo`; `err i` is the error of the product of component
`i`, zero for scalars.  mktfhe/glwe_ops.go:88-92, 116-120, 144-148. -/
def mulGLWETo [Add R] [Mul R] (P out ct : ℕ) (p : R) (err : ℕ → R) (m : Mem R) : Mem R :=
  mapLoopI (fun i _ a _ => a * p + err i) out ct ct (List.range (P + 1)) m
/-- `ScalarMulAddGLWETo`, `PolyMulAddGLWETo` and `FFTPolyMulAddGLWETo`.
mktfhe/glwe_ops.go:95-99, 123-127, 151-155. -/
def mulAddGLWETo [Add R] [Mul R] (P out ct : ℕ) (p : R) (err : ℕ → R) (m : Mem R) : Mem R :=
  mapLoopI (fun i o a _ => o + (a * p + err i)) out ct ct (List.range (P + 1)) m
/-- `ScalarMulSubGLWETo`, `PolyMulSubGLWETo` and `FFTPolyMulSubGLWETo`.
mktfhe/glwe_ops.go:102-106, 130-134, 158-162. -/
def mulSubGLWETo [Add R] [Sub R] [Mul R] (P out ct : ℕ) (p : R) (err : ℕ → R) (m : Mem R) : Mem R :=
  mapLoopI (fun i o a _ => o - (a * p + err i)) out ct ct (List.range (P + 1)) m
/-- `MonomialMulGLWETo` and `PermuteGLWETo`, with `σ` the map of one polynomial.
mktfhe/glwe_ops.go:174-178, 212-216. -/
def exactMapGLWETo (P out ct : ℕ) (σ : R → R) (m : Mem R) : Option (Mem R) :=
  if out = ct then none else some (mapLoopI (fun _ _ a _ => σ a) out ct ct (List.range (P + 1)) m)
/-- `MonomialMulGLWEInPlace` and `PermuteGLWEInPlace`.  mktfhe/glwe_ops.go:181-185, 222-226. -/
def exactMapGLWEInPlace (P ct : ℕ) (σ : R → R) (m : Mem R) : Mem R :=
  mapLoopI (fun _ _ a _ => σ a) ct ct ct (List.range (P + 1)) m
/-- `MonomialMulAddGLWETo` and `PermuteAddGLWETo`.  mktfhe/glwe_ops.go:190-194, 234-238. -/
def exactMapAddGLWETo [Add R] (P out ct : ℕ) (σ : R → R) (m : Mem R) : Option (Mem R) :=
  if out = ct then none else some (mapLoopI (fun _ o a _ => o + σ a) out ct ct (List.range (P + 1)) m)
/-- `MonomialMulSubGLWETo` and `PermuteSubGLWETo`.  mktfhe/glwe_ops.go:199-203, 246-250. -/
def exactMapSubGLWETo [Sub R] (P out ct : ℕ) (σ : R → R) (m : Mem R) : Option (Mem R) :=
  if out = ct then none else some (mapLoopI (fun _ o a _ => o - σ a) out ct ct (List.range (P + 1)) m)

/-! ### Booleans and integers, bit by bit -/

/-- `BinaryEncryptor.EncryptLWEBool`, `EncryptLWEBoolTo`; `none` is the panic for an index out of range.
mktfhe/binary_encryptor.go:48-50, 56-58. -/
def encryptLWEBool {w : ℕ} (P n idx : ℕ) (sk mask : Fin n → BitVec w) (noise : BitVec w) (message : Bool) :
    Option (ℕ → BitVec w) :=
  encryptLWE P n idx sk mask noise (encodeLWEBool w message)

/-- `BinaryEncryptor.EncryptLWEBitsTo` and `EncryptLWEBits`, `bits` iterations from index `i`.
mktfhe/binary_encryptor.go:62-66, 71-76. -/
def encryptLWEBits {w n : ℕ} (P idx : ℕ) (sk : Fin n → BitVec w) (mask : ℕ → Fin n → BitVec w)
    (noise : ℕ → BitVec w) : ℕ → ℕ → BitVec 64 → Option (List (ℕ → BitVec w))
  | 0, _, _ => some []
  | bits + 1, i, message =>
    (encryptLWEBool P n idx sk (mask i) (noise i) (message &&& 1 == 1)).bind fun ct =>
      (encryptLWEBits P idx sk mask noise bits (i + 1) (message.sshiftRight 1)).map (ct :: ·)

/-- `BinaryDecryptor.DecryptLWEBool`.  mktfhe/binary_decryptor.go:37-39. -/
def decryptLWEBool {w n : ℕ} (d : Decryptor (Fin n → BitVec w)) (ct : ℕ → BitVec w) : Option Bool :=
  (decryptLWEPhase d ct).map decodeLWEBool

/-- One iteration of the loop of `DecryptLWEBits`.  mktfhe/binary_decryptor.go:47-50. -/
def decryptBitStep {w n : ℕ} (d : Decryptor (Fin n → BitVec w)) (message : BitVec 64) (ct : ℕ → BitVec w) :
    Option (BitVec 64) :=
  let message := message <<< 1
  (decryptLWEBool d ct).map fun b => if b then message + 1 else message

/-- `BinaryDecryptor.DecryptLWEBits`: from the last ciphertext to the first.
mktfhe/binary_decryptor.go:44-53. -/
def decryptLWEBits {w n : ℕ} (d : Decryptor (Fin n → BitVec w)) (cts : List (ℕ → BitVec w)) : Option (BitVec 64) :=
  cts.reverse.foldlM (decryptBitStep d) 0

end Tfhe.Mk
