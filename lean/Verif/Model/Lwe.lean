import Verif.Model.Vec
import Mathlib.Data.Fin.Tuple.Basic

/-!
# Model of `tfhe/lwe_ops.go` and of the phase part of `tfhe/lwe_enc.go`

Ciphertexts live in a store of vectors (`Mem`), so that the output of an operation can be one of
its inputs.  A ciphertext of dimension `n` is a vector with `n + 1` elements.
-/
namespace Tfhe
variable {R : Type}

/-- `copy(dst, src)` for vectors of the same length (`LWECiphertext.CopyFrom`).
tfhe/lwe.go:146-148. -/
def vecCopy (len dst src : Nat) (m : Mem R) : Mem R :=
  mapLoop (fun _ a _ => a) dst src src (List.range len) m

/-- `AddLWETo`. tfhe/lwe_ops.go:15-17. -/
def addLWETo [Add R] (n out ct0 ct1 : Nat) (m : Mem R) : Mem R := vecAddTo (n + 1) out ct0 ct1 m
/-- `AddPlainLWETo`. tfhe/lwe_ops.go:27-30. -/
def addPlainLWETo [Add R] (n out ct : Nat) (pt : R) (m : Mem R) : Mem R :=
  let m := vecCopy (n + 1) out ct m
  m.write out 0 (m out 0 + pt)
/-- `SubLWETo`. tfhe/lwe_ops.go:40-42. -/
def subLWETo [Sub R] (n out ct0 ct1 : Nat) (m : Mem R) : Mem R := vecSubTo (n + 1) out ct0 ct1 m
/-- `SubPlainLWETo`. tfhe/lwe_ops.go:52-55. -/
def subPlainLWETo [Sub R] (n out ct : Nat) (pt : R) (m : Mem R) : Mem R :=
  let m := vecCopy (n + 1) out ct m
  m.write out 0 (m out 0 - pt)
/-- `NegLWETo`. tfhe/lwe_ops.go:65-67. -/
def negLWETo [Neg R] (n out ct : Nat) (m : Mem R) : Mem R := vecNegTo (n + 1) out ct m
/-- `ScalarMulLWETo`. tfhe/lwe_ops.go:77-79. -/
def scalarMulLWETo [Mul R] (n out ct : Nat) (c : R) (m : Mem R) : Mem R :=
  vecScalarMulTo (n + 1) out ct c m
/-- `ScalarMulAddLWETo`. tfhe/lwe_ops.go:82-84. -/
def scalarMulAddLWETo [Add R] [Mul R] (n out ct : Nat) (c : R) (m : Mem R) : Mem R :=
  vecScalarMulAddTo (n + 1) out ct c m
/-- `ScalarMulSubLWETo`. tfhe/lwe_ops.go:87-89. -/
def scalarMulSubLWETo [Sub R] [Mul R] (n out ct : Nat) (c : R) (m : Mem R) : Mem R :=
  vecScalarMulSubTo (n + 1) out ct c m

/-- `vec.Dot` on vectors of equal length: `res += v0[i] * v1[i]` from the left.
math/vec/vec.go:158-166. -/
def dot [Zero R] [Add R] [Mul R] {n : Nat} (v0 v1 : Fin n → R) : R :=
  Fin.foldl n (fun res i => res + v0 i * v1 i) 0

/-- `EncryptLWEBody`: `mask` is what the uniform sampler wrote to `Value[1:]` and `noise` the
Gaussian sample; the body on entry is `ct 0`.  tfhe/lwe_enc.go:33-37. -/
def encryptLWEBody [Zero R] [Add R] [Neg R] [Mul R] {n : Nat} (sk mask : Fin n → R) (noise body : R) :
    Fin (n + 1) → R :=
  let body := body + -dot mask sk
  let body := body + noise
  Fin.cons body mask

/-- `EncryptLWEPlaintextTo`. tfhe/lwe_enc.go:26-29. -/
def encryptLWEPlaintext [Zero R] [Add R] [Neg R] [Mul R] {n : Nat} (sk mask : Fin n → R) (noise pt : R) :
    Fin (n + 1) → R := encryptLWEBody sk mask noise pt

/-- `DecryptLWEPhase`. tfhe/lwe_enc.go:45-48. -/
def decryptLWEPhase [Zero R] [Add R] [Mul R] {n : Nat} (sk : Fin n → R) (ct : Fin (n + 1) → R) : R :=
  ct 0 + dot (fun i => ct i.succ) sk

end Tfhe
